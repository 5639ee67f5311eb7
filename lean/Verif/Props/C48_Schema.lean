import Verif.Lemmas.ElabPath
import Verif.Lemmas.GrammarEq
import Verif.Props.C20_Outline
import Verif.Props.C45_HostTypes
/-!
# C48: schema files define what is written, and only what the rest can handle

For every set of files that the compiler accepts: names identify types, every type has the form that the code generator
and the planner are proved for, specifications and portals refer to what exists, and the generated declarations come in
an order in which C++ can read them.

`_partial`: the full claim includes that the outcome is always defined, that equal tokens give equal outcomes, and that
portals are what their declarations say.  This is false (`C48_violated_range`, `C48_violated_layout`,
`C48_violated_portal`, `C48_violated_spec_name`, `C48_violated_import`).
-/
namespace PJ

/-- Names identify types: no two definitions have the same name, and any two structs or variants of the same name inside
any definitions are the same type. -/
theorem C48_nominal (fs : FileSys) (asSpec : Bool) (f : Nat) (sc : Scope) (h : elabRoot fs asSpec f = .ok sc) :
    (sc.defs.map (·.1)).Nodup ∧
    ∀ e ∈ sc.defs, ∀ e' ∈ sc.defs, ∀ u ∈ e.2.parts, ∀ u' ∈ e'.2.parts, ∀ n, u.name? = some n → u'.name? = some n →
      u = u' := by
  have hi := ScopeInv.init.run (elabRoot_run h)
  refine ⟨hi.nodup, fun e he e' he' u hu u' hu' n hn hn' => ?_⟩
  exact nodup_fst_eq hi.nodup (hi.closed e he u hu n hn) (hi.closed e' he' u' hu' n hn')

/-- Every type a file defines, and every type inside, without `any` and types that the user has to provide, is a type of
C45. -/
theorem C48_types (fs : FileSys) (asSpec : Bool) (f : Nat) (sc : Scope) (h : elabRoot fs asSpec f = .ok sc) :
    ∀ e ∈ sc.defs, ∀ s, e.2.sty = some s → Accepted s :=
  (ScopeInv.init.run (elabRoot_run h)).accepted

/-- The declarations that go into the generated header use a struct or variant only after its declaration: it is declared
before in the same file, or in a file that is imported, or provided by the user. -/
theorem C48_order (fs : FileSys) (asSpec : Bool) (f : Nat) (sc : Scope) (h : elabRoot fs asSpec f = .ok sc)
    (l₁ l₂ : List DeclOut) (d : DeclOut) (n : SourceId) (t : PTy) (hd : (sc.files f).decls = l₁ ++ d :: l₂)
    (ht : d.type? = some (n, t)) (u : PTy) (hu : u ∈ t.parts) (m : SourceId) (hm : u.name? = some m) :
    (m, u) = (n, t) ∨ u = .ext m ∨ (∃ en ex, DeclOut.composite m u en ex ∈ l₁) ∨
      ∃ g ∈ (sc.files f).imports, ∃ i, i ≠ f ∧ Reaches sc.files g i ∧
        ∃ en ex, DeclOut.composite m u en ex ∈ (sc.files i).decls :=
  ((OrderedFile.init f).run (elabRoot_run h) ScopeInv.init).order l₁ d l₂ hd n t ht u hu m hm

/-- The names in the generated header are defined as the types they are declared with. -/
theorem C48_decls (fs : FileSys) (asSpec : Bool) (f : Nat) (sc : Scope) (h : elabRoot fs asSpec f = .ok sc) :
    ∀ d ∈ (sc.files f).decls, ∀ e, d.type? = some e → e ∈ sc.defs :=
  (ScopeInv.init.run (elabRoot_run h)).fileDecls f

/-- The tag path of a specification goes through fields to a variant and ends with `_`. -/
theorem C48_specs (fs : FileSys) (asSpec : Bool) (f : Nat) (sc : Scope) (h : elabRoot fs asSpec f = .ok sc) :
    (sc.specs.map (·.1)).Nodup ∧ ∀ e ∈ sc.specs, (∃ m, (m, e.2.1) ∈ sc.defs) ∧
      (e.2.2 ≠ [] → ∃ q n ts d, e.2.2 = q ++ [['_']] ∧ LeadsToVariant e.2.1 q n ts d) := by
  have hi := ScopeInv.init.run (elabRoot_run h)
  refine ⟨hi.specsNodup, fun e he => ⟨(hi.specs e he).1, fun hp => ?_⟩⟩
  have h1 := (hi.specs e he).2.1
  simp only [specPathOK, Bool.or_eq_true, Bool.and_eq_true, List.isEmpty_iff, beq_iff_eq] at h1
  rcases h1 with h1 | ⟨h1, h2⟩
  · exact absurd h1 hp
  · obtain ⟨q, c, n, ts, d, h3, h4, _⟩ := (checkVariantPath_iff _ _ false hp).1 h2
    rw [h3, List.getLast?_append] at h1
    simp only [List.getLast?_singleton, Option.some_or, Option.some.injEq] at h1
    exact ⟨q, n, ts, d, by rw [h3, h1], h4⟩

/-- Portals: their specification exists, the sources and destinations are definitions, paths lead to terms that exist,
and no term has two handlers. -/
theorem C48_portals (fs : FileSys) (asSpec : Bool) (f : Nat) (sc : Scope) (h : elabRoot fs asSpec f = .ok sc) :
    (sc.portals.map (·.1)).Nodup ∧ ∀ e ∈ sc.portals, (∃ x ∈ sc.specs, x.1 = e.2.proto) ∧
      (∀ x ∈ e.2.sizers, ∃ t, (x.src, t) ∈ sc.defs ∧
        (x.path ≠ [] → ∃ q c n ts d, x.path = q ++ [c] ∧ LeadsToVariant t q n ts d ∧ c ∈ ts.names)) ∧
      (∀ x ∈ e.2.encoders, ∃ t, (x.src, t) ∈ sc.defs ∧
        (x.path ≠ [] → ∃ q c n ts d, x.path = q ++ [c] ∧ LeadsToVariant t q n ts d ∧ c ∈ ts.names)) ∧
      (∀ x ∈ e.2.decoders, x.handlers.Nodup ∧ ∃ t, (x.dst, t) ∈ sc.defs ∧ ∀ p ∈ x.handlers,
        ∃ q c n ts d, p = q ++ [c] ∧ LeadsToVariant t q n ts d ∧ c ∈ ts.names) := by
  have hi := ScopeInv.init.run (elabRoot_run h)
  have key : ∀ t p, p ≠ [] → checkVariantPath t p true = true →
      ∃ q c n ts d, p = q ++ [c] ∧ LeadsToVariant t q n ts d ∧ c ∈ ts.names := by
    intro t p hp hc
    obtain ⟨q, c, n, ts, d, h1, h2, h3⟩ := (checkVariantPath_iff t p true hp).1 hc
    exact ⟨q, c, n, ts, d, h1, h2, h3 rfl⟩
  have key' : ∀ t p, srcPathOK t p = true → p ≠ [] →
      ∃ q c n ts d, p = q ++ [c] ∧ LeadsToVariant t q n ts d ∧ c ∈ ts.names := by
    intro t p hc hp
    simp only [srcPathOK, Bool.or_eq_true, List.isEmpty_iff] at hc
    exact key t p hp (hc.resolve_left hp)
  refine ⟨hi.portalsNodup, fun e he => ?_⟩
  obtain ⟨h1, h2⟩ := hi.portals e he
  refine ⟨by obtain ⟨x, hx, hn⟩ := List.mem_map.1 h2; exact ⟨x, hx, hn⟩, fun x hx => ?_, fun x hx => ?_, fun x hx => ?_⟩
  · obtain ⟨t, h3, h4, _⟩ := h1.sizers x hx
    exact ⟨t, h3, key' t _ h4⟩
  · obtain ⟨t, h3, h4, _⟩ := h1.encoders x hx
    exact ⟨t, h3, key' t _ h4⟩
  · obtain ⟨t, h3, h4, h5, _⟩ := h1.decoders x hx
    refine ⟨h5, t, h3, fun p hp => key t p (fun hne => ?_) (h4 p hp)⟩
    have h6 := h4 p hp
    rw [hne] at h6
    cases t <;> simp [checkVariantPath, PTy.follow] at h6

/-- The handlers of a decoder are for terms of variants of the described type (`LeadsTo` of C08). -/
theorem C48_handlers (fs : FileSys) (asSpec : Bool) (f : Nat) (sc : Scope) (h : elabRoot fs asSpec f = .ok sc) :
    ∀ e ∈ sc.portals, ∀ x ∈ e.2.decoders, ∃ t, (x.dst, t) ∈ sc.defs ∧ ∀ s, t.sty = some s → ∀ p ∈ x.handlers,
      ∃ q c, p = q ++ [c] ∧ LeadsTo q (describe s) := by
  intro e he x hx
  obtain ⟨_, t, h1, h2⟩ := ((C48_portals fs asSpec f sc h).2 e he).2.2.2 x hx
  refine ⟨t, h1, fun s hs p hp => ?_⟩
  obtain ⟨q, c, n, ts, d, h3, h4, _⟩ := h2 p hp
  exact ⟨q, c, h3, leads_leadsTo h4 s hs (C48_types fs asSpec f sc h _ h1 s hs)⟩

/-- The lookups of the compiler after parsing find something (`pj/pjc.cpp` 115-130). -/
theorem C48_driver (fs : FileSys) (asSpec : Bool) (f : Nat) (sc : Scope) (h : elabRoot fs asSpec f = .ok sc) :
    (∀ e ∈ (sc.files f).specs, e ∈ sc.specs) ∧
    (∀ n ∈ (sc.files f).portals.map (·.1), ∃ q, (n, q) ∈ sc.portals ∧ ∃ x ∈ sc.specs, x.1 = q.proto) ∧
    (∀ e ∈ (sc.files f).precomps, (∃ q, (e.2.1, q) ∈ sc.portals) ∧ ∃ x ∈ sc.specs, x.1 = e.2.2) := by
  have hi := ScopeInv.init.run (elabRoot_run h)
  refine ⟨hi.fileSpecs f, fun n hn => ?_, fun e he => ?_⟩
  · obtain ⟨x, hx, rfl⟩ := List.mem_map.1 hn
    obtain ⟨q, hq, hn⟩ := List.mem_map.1 (hi.filePortals f x hx)
    refine ⟨q.2, by rw [← hn]; exact hq, ?_⟩
    obtain ⟨y, hy, h⟩ := List.mem_map.1 (hi.portals q hq).2
    exact ⟨y, hy, h⟩
  · obtain ⟨h1, h2⟩ := hi.filePrecomps f e he
    obtain ⟨q, hq, hn⟩ := List.mem_map.1 h1
    obtain ⟨y, hy, h⟩ := List.mem_map.1 h2
    exact ⟨⟨q.2, by rw [← hn]; exact hq⟩, y, hy, h⟩

/-- Parsing ends: the files that wait are different, so there are never more of them than files. -/
theorem C48_terminates (fs : FileSys) (asSpec : Bool) (f n : Nat) (h : fs.texts.length < n) :
    elabFile fs asSpec n [] f {} = elabRoot fs asSpec f :=
  elabFile_fuel fs asSpec _ _ [] f {} .nil (by simp) h (by simp)

/-- The outcome is defined if the widths and lengths in the files are below 2^63 and no variant has 2^63 terms. -/
theorem C48_defined_partial (fs : FileSys) (asSpec : Bool) (f : Nat)
    (h : ∀ s ∈ fs.texts, ∀ ds, parseText s = some ds → DeclsInRange ds) : elabRoot fs asSpec f ≠ .undef :=
  elabFile_defined fs asSpec h _ [] f {} .nil (by simp) (by simp)

/-- From text to objects: the protocol of a specification can be planned, the variant at its path and no other is
outlined, and C++ objects survive encoding and decoding. -/
theorem C48_round_trip_partial (fs : FileSys) (asSpec : Bool) (f : Nat) (sc : Scope) (h : elabRoot fs asSpec f = .ok sc)
    (name : SourceId) (t : PTy) (path : Path) (hm : (name, t, path) ∈ sc.specs) (s : STy) (hs : t.sty = some s)
    (hsafe : Safe s) (hsm : Small (describe s)) :
    ∃ p, plan (describe s) path = some p ∧
      (path = [] → p.head.outs = 0) ∧
      (path ≠ [] → p.head.outs = 1 ∧ ∃ o ts l, p.head.at path = some (o, ts, l) ∧ l.outline = true) ∧
      ∀ (E : Env) (obj buf : Nat) (mem : Mem) (v : Val), cppVal E.S s obj = some v →
        fin p.head v (buf + p.head.size) < W64 →
        ∃ r, encode E (describe s) p [] obj buf mem = .ok r ∧
          ∀ (m2 : Mem) (buf2 : Nat), buf2 + (r.ptr - buf) < W64 →
            (∀ i, i < r.ptr - buf → m2 (buf2 + i) = r.mem (buf + i)) →
            ∀ (mem3 : Mem) (dst dbuf cap : Nat), dst + (cpp s).1 < W64 → cap < 2 ^ 63 → dbuf + cap < W64 →
              Disj dst (cpp s).1 dbuf cap → fin (describe s) v dbuf ≤ dbuf + cap →
              ∃ d, decode { E with S := m2 } p (describe s) [] buf2 dst dbuf cap mem3 = some d ∧
                cppVal d.mem s dst = some v := by
  obtain ⟨⟨m, hd⟩, hp⟩ := (C48_specs fs asSpec f sc h).2 _ hm
  have ha : Accepted s := C48_types fs asSpec f sc h _ hd s hs
  have hh := C45_host_partial s ha hsafe hsm
  obtain ⟨p, hpl⟩ := C45_plan_partial s path ha hsafe hsm
  refine ⟨p, hpl, fun he => ?_, fun hne => ?_, fun E obj buf mem v hv hq =>
    C45_round_trip_partial E s path p obj buf mem v ha hsafe hsm hpl hv hq⟩
  · subst he
    exact (C20_nothing_outlined _ _ p hh hpl (by cases describe s <;> simp [Ty.at])).1
  · obtain ⟨q, n, ts, d, h1, h2⟩ := hp hne
    simp only at h1
    obtain ⟨o, ts', l, h3, h4, _, h5⟩ := C20_selected_partial _ _ p hh hpl (by rw [h1]; exact leads_at h2 s _ hs)
    exact ⟨h5, o, ts', l, h3, h4⟩

/-! ## Instances -/

def sid (l : List String) : SourceId := l.map fun s => nameBytes s.toList

/-- A test of the outcome. -/
def Out.test {α} (o : Out α) (P : α → Bool) : Bool :=
  match o with
  | .ok a => P a
  | _ => false

theorem Out.test_ok {α} {o : Out α} {P : α → Bool} (h : o.test P = true) : ∃ a, o = .ok a ∧ P a = true := by
  cases o with
  | ok a => exact ⟨a, rfl, h⟩
  | reject => exact absurd h (by simp [Out.test])
  | undef => exact absurd h (by simp [Out.test])

/-- A file that imports another one, with a tag path, a portal with handlers, and a precompiled portal. -/
def C48_sample : FileSys where
  texts := ["import lib;space app{struct Msg{id:uint32;v:lib.Choice;}specification S:Msg@v._;
portal P:S{sizer siz round_up:Msg;encoder enc:Msg@v.a;decoder dec:Msg{handlers[v.a,v.b];};}precompile Q:P(S);}".toList,
    "space lib{struct A{n:uint8;}variant Choice{a:A;b:uint8[:]=7;}type Unused=A[4];}".toList]
  find := fun id => if id = sid ["lib"] then some 1 else none

def C48_sample_a : PTy := .struct (sid ["lib", "A"]) (.cons "n".toList (.int 1 .unsigned) .nil)
def C48_sample_choice : PTy :=
  .variant (sid ["lib", "Choice"]) (.cons "a".toList 1 C48_sample_a (.cons "b".toList 7 (.vector (.int 1 .unsigned) 0 none)
    (.cons "undef".toList 0 .unit .nil))) 2
def C48_sample_msg : PTy :=
  .struct (sid ["app", "Msg"]) (.cons "id".toList (.int 4 .unsigned) (.cons "v".toList C48_sample_choice .nil))

/-- What the sample defines. -/
theorem C48_sample_ok : ∃ sc, elabRoot C48_sample false 0 = .ok sc ∧
    sc.defs = [(sid ["lib", "A"], C48_sample_a), (sid ["lib", "Choice"], C48_sample_choice),
      (sid ["lib", "Unused"], .array C48_sample_a 4), (sid ["app", "Msg"], C48_sample_msg)] ∧
    sc.specs = [(sid ["app", "S"], C48_sample_msg, ["v".toList, "_".toList])] ∧
    sc.portals = [(sid ["app", "P"], ⟨[⟨"siz".toList, sid ["app", "Msg"], [], true⟩],
      [⟨"enc".toList, sid ["app", "Msg"], ["v".toList, "a".toList]⟩],
      [⟨"dec".toList, sid ["app", "Msg"], [["v".toList, "a".toList], ["v".toList, "b".toList]]⟩], sid ["app", "S"]⟩)] ∧
    (sc.files 0).precomps = [(sid ["app", "Q"], sid ["app", "P"], sid ["app", "S"])] ∧
    (sc.files 0).imports = [1] ∧
    (sc.files 1).decls = [.composite (sid ["lib", "A"]) C48_sample_a false false,
      .composite (sid ["lib", "Choice"]) C48_sample_choice false false,
      .alias (sid ["lib", "Unused"]) (.array C48_sample_a 4)] := by
  obtain ⟨sc, h, ht⟩ := Out.test_ok (o := elabRoot C48_sample false 0) (P := fun sc => decide (
    sc.defs = [(sid ["lib", "A"], C48_sample_a), (sid ["lib", "Choice"], C48_sample_choice),
      (sid ["lib", "Unused"], .array C48_sample_a 4), (sid ["app", "Msg"], C48_sample_msg)] ∧
    sc.specs = [(sid ["app", "S"], C48_sample_msg, ["v".toList, "_".toList])] ∧
    sc.portals = [(sid ["app", "P"], ⟨[⟨"siz".toList, sid ["app", "Msg"], [], true⟩],
      [⟨"enc".toList, sid ["app", "Msg"], ["v".toList, "a".toList]⟩],
      [⟨"dec".toList, sid ["app", "Msg"], [["v".toList, "a".toList], ["v".toList, "b".toList]]⟩], sid ["app", "S"]⟩)] ∧
    (sc.files 0).precomps = [(sid ["app", "Q"], sid ["app", "P"], sid ["app", "S"])] ∧
    (sc.files 0).imports = [1] ∧
    (sc.files 1).decls = [.composite (sid ["lib", "A"]) C48_sample_a false false,
      .composite (sid ["lib", "Choice"]) C48_sample_choice false false,
      .alias (sid ["lib", "Unused"]) (.array C48_sample_a 4)])) (by decide +kernel)
  exact ⟨sc, h, of_decide_eq_true ht⟩

/-- The hypotheses of the theorems about specifications: the sample defines one with a path, and its type is safe and
small. -/
example : ∃ s, C48_sample_msg.sty = some s ∧ Safe s ∧ Small (describe s) := by
  refine ⟨.struct (.cons ['i', 'd'] (.int 4 .unsigned) (.cons ['v'] (.variant (.cons ['a'] 1 (.struct (.cons ['n']
    (.int 1 .unsigned) .nil)) (.cons ['b'] 7 (.vector (.int 1 .unsigned) 0 none) (.cons ['u', 'n', 'd', 'e', 'f'] 0 .unit
    .nil))) 2) .nil)), by rfl, ?_, ?_⟩
  · simp only [Safe, SafeFields, SafeTerms, STerms.decls]
    decide
  · simp [describe, describeFields, describeTerms, Small, SmallFields, rounds, Terms.toList, eligible, eligibleFields, spanL]

/-- A path to the variant of the sample. -/
example : ∃ n ts d, LeadsToVariant C48_sample_msg ["v".toList] n ts d ∧ "a".toList ∈ ts.names :=
  ⟨_, _, _, .field (by rfl) (.here _ _ _), by decide⟩

/-- Numbers in range. -/
example : ∀ s ∈ ["space a{type A=uint8[4][:9];struct S{a:A;}}".toList], ∀ ds, parseText s = some ds → DeclsInRange ds := by
  have h : parseText "space a{type A=uint8[4][:9];struct S{a:A;}}".toList =
      some [.space ['a'] [.type ['A'] false ⟨.builtin .uint 8, [.fixed 4, .var none (some 9)]⟩,
        .struct ['S'] false [⟨['a'], ⟨.ref [['A']], []⟩⟩]]] := by decide +kernel
  intro s hs ds hd
  rw [List.mem_singleton.1 hs, h] at hd
  cases hd
  simp [DeclsInRange, Decl.InRange, TypeAst.InRange, BaseAst.InRange, ModAst.InRange]

/-! ## Violations -/

/-- One file. -/
def C48_one (s : String) : FileSys := ⟨[s.toList], fun _ => none⟩

/-- A length out of range is whatever was in memory. -/
theorem C48_violated_range : ¬ ∀ (fs : FileSys) (asSpec : Bool) (f : Nat), elabRoot fs asSpec f ≠ .undef := by
  intro h
  have h1 : (match elabRoot (C48_one "type A=uint8[9223372036854775808];") false 0 with
    | .undef => true | _ => false) = true := by decide +kernel
  have h2 := h (C48_one "type A=uint8[9223372036854775808];") false 0
  generalize elabRoot (C48_one "type A=uint8[9223372036854775808];") false 0 = o at h1 h2
  cases o <;> simp_all

/-- White space around the dots of a path is allowed by the grammar but becomes part of the names: two files that differ
in it only, of which one is accepted. -/
theorem C48_violated_layout : ∃ s s' : List Char, s.filter (· ≠ ' ') = s'.filter (· ≠ ' ') ∧
    (parseText s).isSome ∧ (parseText s').isSome ∧
    (elabRoot ⟨[s], fun _ => none⟩ false 0).isOk = true ∧ elabRoot ⟨[s'], fun _ => none⟩ false 0 = .reject := by
  have rej : ∀ o : Out Scope, (match o with | .reject => true | _ => false) = true → o = .reject := by
    intro o h; cases o <;> simp_all
  refine ⟨"variant V{a:uint8;} struct T{v:V;} specification S:T@v._;".toList,
    "variant V{a:uint8;} struct T{v:V;} specification S:T@v . _;".toList, by decide +kernel, by decide +kernel,
    by decide +kernel, by decide +kernel, rej _ (by decide +kernel)⟩

/-- A portal whose name is that of an imported portal: the coders of the declaration are lost, and those of the imported
portal get its specification. -/
theorem C48_violated_portal : ∃ (fs : FileSys) (sc : Scope), elabRoot fs false 0 = .ok sc ∧
    fs.texts[0]? = some "import l;struct B{y:uint8;}specification T:B;portal P:T{decoder dec:B;}".toList ∧
    sid ["P"] ∈ (sc.files 0).portals.map (·.1) ∧
    sc.portals = [(sid ["P"], ⟨[], [⟨"enc".toList, sid ["A"], []⟩], [], sid ["T"]⟩)] := by
  obtain ⟨sc, h, ht⟩ := Out.test_ok (o := elabRoot
    ⟨["import l;struct B{y:uint8;}specification T:B;portal P:T{decoder dec:B;}".toList,
      "struct A{x:uint8;}specification S:A;portal P:S{encoder enc:A;}".toList], fun _ => some 1⟩ false 0)
    (P := fun sc => decide (sid ["P"] ∈ (sc.files 0).portals.map (·.1) ∧
      sc.portals = [(sid ["P"], ⟨[], [⟨"enc".toList, sid ["A"], []⟩], [], sid ["T"]⟩)])) (by decide +kernel)
  exact ⟨_, sc, h, rfl, of_decide_eq_true ht⟩

/-- A specification is rejected as a redefinition although there is none of its name: `a.S` after `a.a.S`.  In the other
order both are accepted. -/
theorem C48_violated_spec_name :
    (elabRoot (C48_one "struct T{x:uint8;}space a{space a{specification S:T;}specification S:T;}") false 0).isOk = false ∧
    (elabRoot (C48_one "struct T{x:uint8;}space a{specification S:T;space a{specification S:T;}}") false 0).isOk = true := by
  constructor <;> decide +kernel

/-- A precompiled portal has to be for a portal of the same file: one of an imported file is not found. -/
theorem C48_violated_precomp : (elabRoot
    ⟨["import l;precompile Q:P(S);".toList, "struct A{x:uint8;}specification S:A;portal P:S{encoder enc:A;}".toList],
      fun _ => some 1⟩ false 0).isOk = false ∧
    (elabRoot ⟨["import l;precompile Q:P(S);".toList,
      "struct A{x:uint8;}specification S:A;portal P:S{encoder enc:A;}precompile Q:P(S);".toList],
      fun _ => some 1⟩ false 1).isOk = true := by
  constructor <;> decide +kernel

/-- Whether a file is accepted depends on what was imported before it: `2` uses a type of `1` without importing it. -/
theorem C48_violated_import : ∃ fs : FileSys, (elabRoot fs false 0).isOk = true ∧ (elabRoot fs false 2).isOk = false ∧
    ∀ sc, elabRoot fs false 0 = .ok sc → 2 ∈ (sc.files 0).imports := by
  let fs : FileSys := ⟨["import b;import c;".toList, "struct B{x:uint8;}".toList, "struct C{b:B;}".toList],
    fun id => if id = sid ["b"] then some 1 else some 2⟩
  have h : (elabRoot fs false 0).test (fun sc => decide (2 ∈ (sc.files 0).imports)) = true := by decide +kernel
  refine ⟨fs, by decide +kernel, by decide +kernel, fun sc hs => ?_⟩
  rw [hs] at h
  exact of_decide_eq_true h

/-- Two coders of a portal may have the same name, which the generated class does not allow. -/
theorem C48_violated_items : ∃ (fs : FileSys) (sc : Scope), elabRoot fs false 0 = .ok sc ∧
    sc.portals = [(sid ["P"], ⟨[], [⟨"e".toList, sid ["A"], []⟩, ⟨"e".toList, sid ["A"], []⟩], [], sid ["S"]⟩)] := by
  obtain ⟨sc, h, ht⟩ := Out.test_ok (o := elabRoot
    (C48_one "struct A{x:uint8;}specification S:A;portal P:S{encoder e:A;encoder e:A;}") false 0)
    (P := fun sc => decide (sc.portals = [(sid ["P"], ⟨[], [⟨"e".toList, sid ["A"], []⟩, ⟨"e".toList, sid ["A"], []⟩], [],
      sid ["S"]⟩)])) (by decide +kernel)
  exact ⟨_, sc, h, of_decide_eq_true ht⟩

/-- The terms and tags of the first type that is defined. -/
def C48_first_tags (o : Out Scope) : List (Comp × Nat) :=
  match o with
  | .ok sc =>
    match sc.defs with
    | (_, .variant _ ts _) :: _ => go ts
    | _ => []
  | _ => []
where go : PTerms → List (Comp × Nat)
  | .nil => []
  | .cons c g _ r => (c, g) :: go r

set_option maxRecDepth 10000 in
/-- A tag that is given as an ASCII character is its code. -/
theorem C48_char_tags : ∀ n : Fin 128, n.val ≠ 0 → C48_first_tags
    (elabRoot ⟨["variant V{a:uint8='".toList ++ Char.ofNat n :: "';}".toList], fun _ => none⟩ false 0) =
      [("a".toList, n.val), ("undef".toList, 0)] := by
  decide +kernel

set_option maxRecDepth 10000 in
/-- Other bytes are sign extended, so that the tag needs eight bytes. -/
theorem C48_violated_char : ∀ n : Fin 256, 128 ≤ n.val → C48_first_tags
    (elabRoot ⟨["variant V{a:uint8='".toList ++ Char.ofNat n :: "';}".toList], fun _ => none⟩ false 0) =
      [("a".toList, 2 ^ 64 - 256 + n.val), ("undef".toList, 0)] := by
  decide +kernel

/-- An import inside a space is looked for with the name of the space in front. -/
theorem C48_import_in_space :
    let fs : FileSys := ⟨["import b;".toList, "space a{import b;}".toList, "struct B{x:uint8;}".toList],
      fun id => if id = sid ["b"] then some 2 else none⟩
    let fs' : FileSys := { fs with find := fun id => if id = sid ["a", "b"] then some 2 else none }
    (elabRoot fs false 0).isOk = true ∧ (elabRoot fs false 1).isOk = false ∧
    (elabRoot fs' false 0).isOk = false ∧ (elabRoot fs' false 1).isOk = true := by
  refine ⟨?_, ?_, ?_, ?_⟩ <;> decide +kernel

end PJ
