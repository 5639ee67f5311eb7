import Verif.Model.Extend
/-!
# Paths through a function
-/
namespace PJ

def XTerm.succs : XTerm → List Nat
  | .jump b => [b]
  | .br _ b b' => [b, b']
  | .switch _ bs => bs
  | .ret => []

/-- Control can go from one position to the other. -/
def XProg.Edge (p : XProg) (q r : Pos) : Prop :=
  ∃ b, p[q.1]? = some b ∧
    ((q.2 < b.insts.length ∧ r = (q.1, q.2 + 1)) ∨
     (q.2 = b.insts.length ∧ r.2 = 0 ∧ r.1 ∈ b.term.succs))

/-- A path from `q` to `r`: the positions before `r`. -/
def XProg.IsPath (p : XProg) : Pos → List Pos → Pos → Prop
  | q, [], r => q = r
  | q, x :: l, r => x = q ∧ ∃ y, p.Edge q y ∧ p.IsPath y l r

/-- The register an instruction defines. -/
def XI.dst : XI → Option Nat
  | .other o => o.dst
  | _ => none

/-- Every way from the entry to `r` goes through `q`. -/
def XProg.Dominates (p : XProg) (q r : Pos) : Prop := ∀ l, p.IsPath (0, 0) l r → q ∈ l

/-- The instruction at a position, if there is one, does not store to the region. -/
def XProg.Quiet (p : XProg) (A : Analyses) (R : Region) (q : Pos) : Prop := p.inst q = none ∨ A.mods q R = false

/-- What the comment on `findFrontier` says about the instructions in a frontier: the poison dominates them,
and nothing on any way from the poison to them may store to the region. -/
structure Proper (p : XProg) (A : Analyses) (R : Region) (q : Pos) : Prop where
  dom : p.Dominates R.at_ q
  clean : ∀ l, p.IsPath (R.at_.1, R.at_.2 + 1) l q → R.at_ ∉ l → ∀ x ∈ l, p.Quiet A R x

/-- What is assumed about the function and the analyses, for executions that start in `s`. -/
structure Analysed (p : XProg) (A : Analyses) (s : XSt) : Prop where
  /-- Instructions that do not modify a region leave it alone. -/
  alias_ : ∀ R ∈ regions p, ∀ n q i t u a, p.run n s = some (q, t) → p.inst q = some i → A.mods q R = false →
    i.exec t = some u → t.regs R.root = some a → ∀ y, a + R.off ≤ y → y < a + R.off + R.len → u.mem y = t.mem y
  /-- Bounds of lengths are right. -/
  bound : ∀ n q t src so root off len bound safe k, p.run n s = some (q, t) →
    p.inst q = some (.copy src so root off len bound safe) → len.eval t = some k → k ≤ bound
  dom : ∀ q b, A.dom q b = true → p.Dominates q (b, 0)
  /-- SSA form: the definition of the root of a region dominates the poison. -/
  ssa : ∀ R ∈ regions p, ∀ q i, p.inst q = some i → i.dst = some R.root → p.Dominates q R.at_
  /-- Offsets and sizes are `size_t`. -/
  small : (∀ R ∈ regions p, R.off + R.len < W64) ∧
    ∀ q src so root off len bound safe, p.inst q = some (.copy src so root off len bound safe) → off < W64

/-- Alias analysis sees that a copy to the same root that starts behind the region does not modify it. -/
def Behind (p : XProg) (A : Analyses) : Prop :=
  ∀ R ∈ regions p, ∀ q src so off len bound safe,
    p.inst q = some (.copy src so R.root off len bound safe) → R.off + R.len < off → A.mods q R = false

/-- No position can be reached from two positions. -/
def XProg.Tree (p : XProg) : Prop := ∀ x y r, p.Edge x r → p.Edge y r → x = y

end PJ
