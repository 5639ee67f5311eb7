/-!
# The handles of the runtime

Models `runtime::Context`, `runtime::Portal` (`pj/include/pj/runtime.hpp` 28-67, 88-103), `PJGetContext`, `PJFreeContext`,
`PJCompile`, `PJFreePortal` (`pj/runtime.cpp` 42-48, 363-367, 384-386), and the members of the generated classes
(`pj/sourcegen.cpp` 818-838, 856-893), whose move operations are the implicit ones: member by member.

What a handle holds is given by numbers, in the order of creation.  Variables are numbered too.

Simplifications: one thread; exceptions are left out; of a generated class' functions one stands for all, as all
come from the same portal.  `runtime::Protocol` owns nothing and is left out.
-/
namespace PJ

inductive HKind where
  | context | portal | generated
deriving DecidableEq

/-- A variable: `ctx_`, `portal_` and the portal that the functions of a generated class are from.  A `Context` has only the
first, a `Portal` only the second. -/
structure HVar where
  kind : HKind
  ctx : Option Nat := none
  portal : Option Nat := none
  fns : Option Nat := none

structure HState where
  /-- The variables that live. -/
  vars : Nat → Option HVar
  /-- The number of contexts and portals that were made. -/
  next : Nat
  /-- Those that were deleted. -/
  freed : List Nat

def HState.init : HState := ⟨fun _ => none, 0, []⟩

def HState.set (s : HState) (x : Nat) (v : Option HVar) : HState := { s with vars := fun y => if y = x then v else s.vars y }

/-- `delete`; of a null pointer it does nothing, and twice it is undefined behaviour. -/
def HState.free (s : HState) : Option Nat → Option HState
  | none => some s
  | some o => if o ∈ s.freed then none else some { s with freed := o :: s.freed }

inductive HOp where
  /-- `Context x;` -/
  | context (x : Nat)
  /-- `Portal x;` -/
  | portal (x : Nat)
  /-- `Generated x;` -/
  | generated (x : Nat)
  /-- `Portal x = c.compile();`, or with `c.getContext()->compile()` for a generated class -/
  | compile (x c : Nat)
  /-- `x = c.compile();` -/
  | recompile (x c : Nat)
  /-- `T x = std::move(y);` -/
  | moveInit (x y : Nat)
  /-- `x = std::move(y);` -/
  | moveAssign (x y : Nat)
  /-- A function of a generated class. -/
  | call (x : Nat)
  /-- `x` goes out of scope. -/
  | drop (x : Nat)

/-- What is moved from keeps its functions. -/
def HVar.moved (v : HVar) : HVar := { v with ctx := none, portal := none }

/-- A pointer that is followed. -/
def HState.deref (s : HState) : Option Nat → Option Unit
  | none => none
  | some o => if o ∈ s.freed then none else some ()

/-- One statement; `none` if it has undefined behaviour or names a variable that does not live. -/
def HState.step (s : HState) : HOp → Option HState
  | .context x => some { s.set x (some ⟨.context, some s.next, none, none⟩) with next := s.next + 1 }
  | .portal x => some (s.set x (some ⟨.portal, none, none, none⟩))
  | .generated x =>
    -- `ctx_`, then `portal_ = ctx_.compile()`, then the functions
    some { s.set x (some ⟨.generated, some s.next, some (s.next + 1), some (s.next + 1)⟩) with next := s.next + 2 }
  | .compile x c => do
    let v ← s.vars c
    s.deref v.ctx
    some { s.set x (some ⟨.portal, none, some s.next, none⟩) with next := s.next + 1 }
  | .recompile x c => do
    let v ← s.vars c
    s.deref v.ctx
    let w ← s.vars x
    -- `portal_ = p.portal_`; the temporary `p` is left with null, and deletes nothing
    some { s.set x (some { w with portal := some s.next }) with next := s.next + 1 }
  | .moveInit x y => do
    let v ← s.vars y
    some ((s.set y (some v.moved)).set x (some v))
  | .moveAssign x y => do
    let v ← s.vars y
    let _ ← s.vars x
    -- the pointers are stored into `x` before those of `y` are cleared
    some ((s.set x (some v)).set y (some v.moved))
  | .call x => do
    let v ← s.vars x
    s.deref v.fns
    some s
  | .drop x => do
    let v ← s.vars x
    -- members are destroyed in the reverse order
    let s ← s.free v.portal
    let s ← s.free v.ctx
    some (s.set x none)

def HState.run (s : HState) : List HOp → Option HState
  | [] => some s
  | op :: r => (s.step op).bind fun s' => s'.run r

end PJ
