import Verif.Lemmas.PlanCtxAll
import Verif.Props.C29_Transport
import Mathlib.Tactic.DeriveCountable
import Mathlib.Logic.Equiv.List
/-!
# C54: planning with names is planning with trees

`Model/PlanCtx.lean` plans as the code does, with structs and variants that are stored by name and changed in place, in
domains of which one has been used by all earlier plannings.
-/
namespace PJ

/-- The terms of a variant have no vector that hoisting would split. -/
def NothingToSplit (ctx : Ctx) (v : Key) : Prop := ∀ m ts l, tree ctx m (.nom v) = some (.variant ts l) →
  ∀ t ∈ ts.toList, ∀ vl, VecIn vl t.ty → vl.wireMin = 0 ∨ vl.maxLen = some vl.wireMin

theorem NothingToSplit.once {ctx : Ctx} {v : Key} (h : NothingToSplit ctx v) {m : Nat} {ts : Terms} {l : VarL}
    (ht : tree ctx m (.nom v) = some (.variant ts l)) : hoistOnce (ts.toList, l.dflt) = none := by
  simp only [hoistOnce]
  cases hs : splitTerms (freeTag (ts.toList.map (·.tag))) ts.toList with
  | none => rfl
  | some y =>
    exfalso
    obtain ⟨tl, s⟩ := y
    obtain ⟨pre, t, post, sp, e1, e2, -⟩ := splitTerms_some hs
    obtain ⟨vl, h1, h2⟩ := splitFirst_vecIn _ _ e2
    exact h2 (h m ts l ht t (by rw [e1]; simp) vl h1)

/-- What planning a type of a host needs. -/
structure Plannable (addr : Ref → Comp) (host : Ctx) (n : Nat) (head : Ref) (path : Path) : Prop where
  named : ∀ k, k.kind = .struct → uses host n k head ≠ 0 → Named addr k
  path : ∀ k ∈ onPath host n head path, uses host n k head ≤ 1
  first : ∀ v, firstVariant n host head = some v → uses host n v head ≤ 1 ∨ NothingToSplit host v

theorem planC_spec {addr : Ref → Comp} (hap : SuffixFree addr) {host : Ctx} {n : Nat} {head : Ref} {t : Ty} {path : Path}
    (ht : tree host n head = some t) (hn : Nodes host n head) (hno : t.noOut) (hp : Plannable addr host n head path)
    (hr : ∀ k, hoistRounds ((tryOutline t path).getD t) = some k → k < n) (int : Ctx) :
    match plan t path with
    | none => planC addr n host int head path = none
    | some p => ∃ h' wire int', planC addr n host int head path = some (⟨h', p.bufOff, wire⟩, int') ∧
        tree wire n h' = some p.head ∧ WFRef wire h' := by
  obtain ⟨int1, c1, c2, -⟩ := convertC_spec host n head int t ht hn (noOut_kinds ht hn hno)
  have ht1 : tree int1 n head = some t := by rw [tree_agree n head c2]; exact ht
  have hn1 : Nodes int1 n head := nodes_agree n head c2 hn
  have hk1 : ∀ k, uses int1 n k head ≠ 0 → k.kind ≠ .out := noOut_kinds ht1 hn1 hno
  have hu1 : ∀ k, uses int1 n k head = uses host n k head := fun k => uses_agree n head c2
  have hp1 : ∀ k ∈ onPath int1 n head path, uses int1 n k head ≤ 1 := fun k hk => by
    rw [onPath_agree n head path c2] at hk
    rw [hu1]
    exact hp.path k hk
  have hf1 : ∀ v, firstVariant n int1 head = some v → uses int1 n v head ≤ 1 ∨ NothingToSplit int1 v := fun v hv => by
    rw [firstVariant_agree n head c2] at hv
    rw [hu1]
    rcases hp.first v hv with h | h
    · exact Or.inl h
    · right
      intro m ts l hm
      refine h m ts l ?_
      rw [← tree_agree m (.nom v) fun k hk => c2 k (reach_uses ((firstVariant_reach hv).trans (uses_reach hk)) rfl ht)]
      exact hm
  -- outlining
  have h2 : ∃ r2 int2, (outlineC n int1 head path).getD (head, int1) = (r2, int2) ∧
      tree int2 n r2 = some ((tryOutline t path).getD t) ∧ Nodes int2 n r2 ∧
      (∀ k, k.kind = .struct → uses int2 n k r2 ≤ uses int1 n k head) ∧
      ∀ v, firstVariant n int2 r2 = some v → uses int2 n v r2 ≤ 1 ∨
        ∀ m ts l, tree int2 m (.nom v) = some (.variant ts l) → hoistOnce (ts.toList, l.dflt) = none := by
    have ho := outlineC_spec n int1 head path t ht1 hn1 hk1 hp1
    cases hto : tryOutline t path with
    | none =>
      rw [hto] at ho
      simp only at ho
      refine ⟨head, int1, by rw [ho]; rfl, ht1, hn1, fun k _ => Nat.le_refl _, fun v hv => (hf1 v hv).imp id fun h m ts l hm =>
        h.once hm⟩
    | some t' =>
      rw [hto] at ho
      obtain ⟨r2, int2, o1, o2⟩ := ho
      refine ⟨r2, int2, by rw [o1]; rfl, o2.tree, o2.nodes, fun k hk => o2.uses k (by rw [hk]; simp), fun v hv => ?_⟩
      rcases o2.first v hv with h | h
      · exact Or.inl (o2.outs v h)
      · have hvo : v.kind ≠ .out := hk1 v (reach_uses (firstVariant_reach h) rfl ht1)
        rcases hf1 v h with h3 | h3
        · exact Or.inl (Nat.le_trans (o2.uses v hvo) h3)
        · right
          intro m ts l hm
          refine h3.once (m := m) ?_
          rw [← hm]
          refine (tree_agree m (.nom v) fun k hk => ?_).symm
          have hrk : Reach int1 (.nom v) (.nom k) := uses_reach hk
          apply Decidable.byContradiction
          intro hne
          rcases o2.frame k hne with h4 | h4
          · exact hk1 k (reach_uses ((firstVariant_reach h).trans hrk) rfl ht1) h4
          · have h5 := path_first ht1 h4 h hrk
            have h6 := hp1 k h4
            omega
  obtain ⟨r2, int2, e1, e2, e3, e4, e5⟩ := h2
  -- hoisting
  obtain ⟨int3, g1, g2, g3⟩ := hoistC_spec hap.inj n int2 r2 _ e2 e3 (fun q hq hk => by
    have h6 := e4 q hk
    have h7 : uses host n q head ≠ 0 := by rw [← hu1]; omega
    have := hp.named q hk h7
    exact ⟨this.1, this.notSplit⟩) e5 hr
  -- layout
  have hl := layoutC_spec int3 n r2 _ g2 g3 (fun _ => none) (fun _ _ h => by cases h)
  simp only [planC, c1, e1, g1]
  unfold plan
  rw [show (findHoist ((tryOutline t path).getD t)).getD ((tryOutline t path).getD t) = prepare t path from rfl] at hl
  by_cases hd : (prepare t path).planDef = true
  · rw [if_pos hd]
    obtain ⟨w1, l1, -, -, l2, l3⟩ := hl.1 hd
    simp only [l1]
    obtain ⟨w2, k1, k2, k3⟩ := genOffsetC_spec l2 l3 ((layout_out _).2.1 (prepare_out t path hno))
    rw [k1]
    exact ⟨_, w2, int3, rfl, k2, k3.wf k2⟩
  · rw [if_neg hd]
    simp only [hl.2 (by simpa using hd)]

theorem Plannable.stable {addr : Ref → Comp} {host : Ctx} {n m : Nat} {head : Ref} {t : Ty} {path : Path}
    (h : Plannable addr host n head path) (ht : tree host n head = some t) (hm : n ≤ m) : Plannable addr host m head path := by
  refine ⟨fun k hk hu => ?_, fun k hk => ?_, fun v hv => ?_⟩
  · rw [uses_stable ht hm] at hu
    exact h.named k hk hu
  · rw [onPath_stable ht hm] at hk
    rw [uses_stable ht hm]
    exact h.path k hk
  · rw [firstVariant_stable ht hm] at hv
    rw [uses_stable ht hm]
    exact h.first v hv

/-- What is planned is what is planned for the tree of the type (`Model/Plan.lean`), whatever earlier plannings have left
in the internal domain, and the types of the wire domain are as the transport of protocols needs them. -/
theorem C54_plan_partial (addr : Ref → Comp) (host : Ctx) (n : Nat) (head : Ref) (t : Ty) (path : Path) (ha : SuffixFree addr)
    (wf : WFRef host head) (ht : tree host n head = some t) (hno : t.noOut) (hp : Plannable addr host n head path) :
    ∃ F, ∀ m, F ≤ m → ∀ int : Ctx,
      match plan t path with
      | none => planC addr m host int head path = none
      | some p => ∃ h' wire int', planC addr m host int head path = some (⟨h', p.bufOff, wire⟩, int') ∧
          tree wire m h' = some p.head ∧ WFRef wire h' := by
  refine ⟨max n ((hoistRounds ((tryOutline t path).getD t)).getD 0 + 1), fun m hm int => ?_⟩
  have hnm : n ≤ m := by omega
  exact planC_spec ha (tree_mono ht hnm) (wf.nodes m) hno (hp.stable ht hnm) (fun k hk => by
    rw [hk] at hm
    simp only [Option.getD_some] at hm
    omega) int

/-- What converting a type does fails if it fails for one of the parts. -/
theorem convertAll_none {step : Ref → Ctx → Option Ctx} {c : Ref} (h : ∀ int, step c int = none) :
    ∀ (l : List Ref) (int : Ctx), c ∈ l → convertAll step l int = none
  | [], _, hc => by simp at hc
  | b :: l, int, hc => by
    rw [convertAll]
    split
    · rfl
    · next i hb =>
      refine convertAll_none h l i ?_
      rcases List.mem_cons.1 hc with rfl | hc
      · rw [h] at hb; cases hb
      · exact hc

theorem convertC_none (host : Ctx) {k : Key} {ts : List (TermD Ref Attr)} {d : OutD} (hk : host k = some (.out ts d)) :
    ∀ (n : Nat) (r : Ref), uses host n k r ≠ 0 → ∀ int, convertC host n r int = none
  | 0, _, _, _ => rfl
  | n + 1, r, hu, int => by
    by_cases e : r = .nom k
    · subst e; simp only [convertC, hk]
    · obtain ⟨c, hc, hne⟩ : ∃ c ∈ kids host r, uses host n k c ≠ 0 := by
        apply Classical.byContradiction
        intro hc
        refine hu ?_
        simp only [uses, e, if_false, Nat.zero_add]
        exact List.sum_eq_zero_iff_forall_eq_nat.2 fun x hx => by
          obtain ⟨c, hc', rfl⟩ := List.mem_map.1 hx
          exact Classical.byContradiction fun h => hc ⟨c, hc', h⟩
      have ih := convertC_none host hk n c hne
      cases r with
      | int | float | unit => simp [kids] at hc
      | array e | vector e =>
        simp only [kids, List.mem_singleton] at hc
        subst hc
        exact ih int
      | nom q =>
        simp only [kids] at hc
        simp only [convertC]
        cases hq : host q with
        | none => rfl
        | some x =>
          rw [hq] at hc
          cases x with
          | out => rfl
          | struct | inl => exact convertAll_none ih _ _ hc

/-- A type of the host with an outlined variant somewhere in it cannot be planned: the assertion at the end of
`ConvertInternal::convert` fails. -/
theorem C54_outlined (addr : Ref → Comp) (host int : Ctx) (n : Nat) (head : Ref) (path : Path) (k : Key)
    (ts : List (TermD Ref Attr)) (d : OutD) (hk : host k = some (.out ts d)) (hu : uses host n k head ≠ 0) :
    planC addr n host int head path = none := by
  rw [planC, convertC_none host hk n head hu]

example : ∃ (host : Ctx) (k : Key) (ts : List (TermD Ref Attr)) (d : OutD), host k = some (.out ts d) ∧
    uses host 3 k (.array (.nom k) 2 1 1) ≠ 0 := by
  refine ⟨fun _ => some (.out [] { dflt := 0, tagW := 1, tagAlign := 1, termOff := 0, termAlign := 1 }), ⟨.out, [['V']]⟩, _, _,
    rfl, by decide⟩

/-- One of the protocols that a process plans. -/
structure Job where
  host : Ctx
  head : Ref
  path : Path

/-- Plannings one after another, with one internal domain for all. -/
def planAll (addr : Ref → Comp) (m : Nat) : List Job → Ctx → Option (List Planned)
  | [], _ => some []
  | j :: js, int =>
    match planC addr m j.host int j.head j.path with
    | none => none
    | some (p, int) => (planAll addr m js int).map (p :: ·)

/-- None of the plannings of a process is disturbed by those before it. -/
theorem C54_process_partial (addr : Ref → Comp) (ha : SuffixFree addr) : ∀ (js : List Job) (ts : List (Ty × Proto)),
    js.length = ts.length →
    (∀ x ∈ js.zip ts, ∃ n, WFRef x.1.host x.1.head ∧ tree x.1.host n x.1.head = some x.2.1 ∧ x.2.1.noOut ∧
      Plannable addr x.1.host n x.1.head x.1.path ∧ plan x.2.1 x.1.path = some x.2.2) →
    ∃ F, ∀ m, F ≤ m → ∀ int : Ctx, ∃ ps, planAll addr m js int = some ps ∧ ps.length = ts.length ∧
      ∀ x ∈ ps.zip ts, x.1.bufOff = x.2.2.bufOff ∧ tree x.1.wire m x.1.head = some x.2.2.head ∧ WFRef x.1.wire x.1.head
  | [], [], _, _ => ⟨0, fun m _ int => ⟨[], rfl, rfl, by simp⟩⟩
  | [], _ :: _, h, _ => by simp at h
  | _ :: _, [], h, _ => by simp at h
  | j :: js, t :: ts, hl, h => by
    obtain ⟨F1, hF1⟩ := C54_process_partial addr ha js ts (by simpa using hl) fun x hx => h x (by simp [hx])
    obtain ⟨n, h1, h2, h3, h4, h5⟩ := h (j, t) (by simp)
    simp only at h1 h2 h3 h4 h5
    obtain ⟨F2, hF2⟩ := C54_plan_partial addr j.host n j.head t.1 j.path ha h1 h2 h3 h4
    refine ⟨max F1 F2, fun m hm int => ?_⟩
    have h6 := hF2 m (by omega) int
    rw [h5] at h6
    obtain ⟨h', wire, int', e1, e2, e3⟩ := h6
    obtain ⟨ps, g1, g2, g3⟩ := hF1 m (by omega) int'
    refine ⟨⟨h', t.2.bufOff, wire⟩ :: ps, by simp only [planAll, e1, g1, Option.map_some], by simp [g2], fun x hx => ?_⟩
    simp only [List.zip_cons_cons, List.mem_cons] at hx
    rcases hx with rfl | hx
    · exact ⟨rfl, e2, e3⟩
    · exact g3 x hx

/-- A protocol that is planned, sent and received encodes, decodes and sizes as the plan for the tree of the type. -/
theorem C54_sent_partial (addr : Ref → Comp) (host : Ctx) (n : Nat) (head : Ref) (t : Ty) (path : Path) (p : Proto)
    (ha : SuffixFree addr) (wf : WFRef host head) (ht : tree host n head = some t) (hno : t.noOut)
    (hp : Plannable addr host n head path) (hpl : plan t path = some p) :
    ∃ F, ∀ m, F ≤ m → ∀ int : Ctx, ∃ h' wire int', planC addr m host int head path = some (⟨h', p.bufOff, wire⟩, int') ∧
      ∃ k, ∀ fuel, k ≤ fuel → ∃ q, reflectProto wire fuel h' p.bufOff = some q ∧ (q.types.length < 2 ^ 31 →
        ∃ head' ctx' t', unreflectProto q.types.length q = some (head', p.bufOff, ctx') ∧ tree ctx' m head' = some t' ∧
          (∀ E host path obj buf mem,
            encode E host ⟨t', p.bufOff⟩ path obj buf mem = encode E host p path obj buf mem) ∧
          (∀ E host hs msg obj buf cap mem,
            decode E ⟨t', p.bufOff⟩ host hs msg obj buf cap mem = decode E p host hs msg obj buf cap mem) ∧
          (∀ ru S host path obj, sizeFn ru S host ⟨t', p.bufOff⟩ path obj = sizeFn ru S host p path obj)) := by
  obtain ⟨F, hF⟩ := C54_plan_partial addr host n head t path ha wf ht hno hp
  refine ⟨F, fun m hm int => ?_⟩
  have h1 := hF m hm int
  rw [hpl] at h1
  obtain ⟨h', wire, int', e1, e2, e3⟩ := h1
  obtain ⟨k, hk⟩ := C30_reflect_total wire h' p.bufOff e3
  refine ⟨h', wire, int', e1, k, fun fuel hf => ?_⟩
  obtain ⟨q, hq⟩ := hk fuel hf
  refine ⟨q, hq, fun hlen => ?_⟩
  obtain ⟨head', ctx', t', g1, g2, g3, g4, g5, -⟩ := C29_codec wire fuel h' p.bufOff q e3 hq hlen m p.head e2
  exact ⟨head', ctx', t', g1, g2, g3, g4, g5⟩

/-! ## Non-trivial case -/

instance : Countable Char := ⟨Char.toNat, fun _ _ h => Char.ext (UInt32.toNat_inj.1 h)⟩
instance : Countable Comp := inferInstanceAs (Countable (List Char))
deriving instance Countable for Sign
deriving instance Countable for NKind
deriving instance Countable for Key
deriving instance Countable for RefMode
deriving instance Countable for VecL
deriving instance Countable for Ref

namespace C54

/-- Addresses as the theorems need them: a mark and a number. -/
theorem exists_addr : ∃ addr : Ref → Comp, SuffixFree addr ∧ ∀ r, ∃ k, addr r = '@' :: List.replicate k '1' := by
  obtain ⟨f, hf⟩ := (inferInstance : Countable Ref).exists_injective_nat
  refine ⟨fun r => '@' :: List.replicate (f r) '1', fun r r' p h => ?_, fun r => ⟨f r, rfl⟩⟩
  cases p with
  | nil =>
    simp only [List.nil_append, List.cons.injEq, true_and] at h
    exact hf (by simpa using congrArg List.length h)
  | cons c p =>
    simp only [List.cons_append, List.cons.injEq] at h
    have : '@' ∈ List.replicate (f r) '1' := by rw [h.2]; simp
    simp [List.mem_replicate] at this

theorem named {addr : Ref → Comp} (h : ∀ r, ∃ k, addr r = '@' :: List.replicate k '1') {k : Key} (hn : k.name ≠ [])
    (hc : ∀ c ∈ k.name, '@' ∉ c) : Named addr k := by
  refine ⟨hn, fun r p e => ?_⟩
  obtain ⟨j, hj⟩ := h r
  have := hc _ (List.mem_of_getLast? e)
  rw [hj] at this
  simp at this

def kS : Key := ⟨.struct, [['S']]⟩
def kT : Key := ⟨.struct, [['T']]⟩
def kV : Key := ⟨.inl, [['V']]⟩
def kW : Key := ⟨.inl, [['W']]⟩

def vec : VecL :=
  { minLen := 0, maxLen := some 5, wireMin := 2, ppl := 0, lenOff := 0, lenSize := 8, refOff := 8, refSize := 8,
    mode := .pointer, inlOff := 0, parOff := 0, elemW := 1, size := 16, align := 8 }

def vdata : InlD := { dflt := 1, termOff := 0, termSize := 16, tagOff := 16, tagW := 1, size := 24, align := 8 }

/-- `struct T { w: uint8[2:5] }`, `variant V { x: T; z: unit }`, `struct S { a: uint32; v: V; t: T }`. -/
def host : Ctx := fun k =>
  if k = kT then some (.struct [⟨['w'], 0, .vector (.int 1 .unsigned 1) vec⟩] 16 8)
  else if k = kV then some (.inl [⟨['x'], 1, [], .nom kT⟩, ⟨['z'], 2, [], .unit⟩] vdata)
  else if k = kS then some (.struct [⟨['a'], 0, .int 4 .unsigned 4⟩, ⟨['v'], 8, .nom kV⟩, ⟨['t'], 32, .nom kT⟩] 48 8)
  else none

theorem host_wf : WFRef host (.nom kS) := by
  have h1 : WFRef host (.int 1 .unsigned 1) := .mk _ trivial (by simp [kids])
  have h4 : WFRef host (.int 4 .unsigned 4) := .mk _ trivial (by simp [kids])
  have hu : WFRef host .unit := .mk _ trivial (by simp [kids])
  have hv : WFRef host (.vector (.int 1 .unsigned 1) vec) := .mk _ trivial (by
    intro c hc
    rw [List.mem_singleton.1 (show c ∈ [Ref.int 1 .unsigned 1] from hc)]; exact h1)
  have hT : WFRef host (.nom kT) := .mk _ trivial (by
    intro c hc
    rw [List.mem_singleton.1 (show c ∈ [Ref.vector (.int 1 .unsigned 1) vec] from hc)]; exact hv)
  have hV : WFRef host (.nom kV) := .mk _ ⟨by simp; decide, by decide⟩ (by
    intro c hc
    have hc : c ∈ [Ref.nom kT, .unit] := hc
    simp only [List.mem_cons, List.not_mem_nil, or_false] at hc
    rcases hc with rfl | rfl <;> assumption)
  refine .mk _ trivial ?_
  intro c hc
  have hc : c ∈ [Ref.int 4 .unsigned 4, .nom kV, .nom kT] := hc
  simp only [List.mem_cons, List.not_mem_nil, or_false] at hc
  rcases hc with rfl | rfl | rfl <;> assumption

def path : Path := [['v'], ['x']]

end C54

/-- The hypotheses of C54 hold of the sample, in which a struct is used twice, a vector in it is split and the variant is
outlined. -/
example : ∃ addr t p, SuffixFree addr ∧ WFRef C54.host (.nom C54.kS) ∧ tree C54.host 5 (.nom C54.kS) = some t ∧ t.noOut ∧
    Plannable addr C54.host 5 (.nom C54.kS) C54.path ∧ plan t C54.path = some p ∧ p.head.hasOut = true ∧
    uses C54.host 5 C54.kT (.nom C54.kS) = 2 := by
  obtain ⟨addr, ha, hm⟩ := C54.exists_addr
  refine ⟨addr, _, _, ha, C54.host_wf, rfl, ?_, ⟨fun k hk hu => ?_, ?_, fun v hv => Or.inl ?_⟩, rfl, by decide +kernel,
    by decide +kernel⟩
  · simp [Ty.noOut, Fields.noOut, Terms.noOut]
  · obtain ⟨d, hd, -⟩ := NodeOK_nom.1 ((C54.host_wf.reach (uses_reach hu)).nodes 1).1
    have : k ∈ [C54.kT, C54.kV, C54.kS] := by
      simp only [C54.host] at hd
      split at hd
      · simp [*]
      · split at hd
        · simp [*]
        · split at hd
          · simp [*]
          · cases hd
    simp only [List.mem_cons, List.not_mem_nil, or_false] at this
    rcases this with rfl | rfl | rfl <;> exact C54.named hm (by decide) (by decide)
  · have : onPath C54.host 5 (.nom C54.kS) C54.path = [C54.kS] := by decide +kernel
    intro k hk
    rw [this] at hk
    rw [List.mem_singleton.1 hk]
    decide +kernel
  · have : firstVariant 5 C54.host (.nom C54.kS) = some C54.kV := by decide +kernel
    cases this.symm.trans hv
    decide +kernel

namespace C54

/-- `variant V { x: uint8[2:5]; z: unit }`, `variant W` with the same terms, `struct S { a: V; b: <b> }`. -/
def twice (b : Key) : Ctx := fun k =>
  if k = kV ∨ k = kW then some (.inl [⟨['x'], 1, [], .vector (.int 1 .unsigned 1) vec⟩, ⟨['z'], 2, [], .unit⟩] vdata)
  else if k = kS then some (.struct [⟨['a'], 0, .nom kV⟩, ⟨['b'], 24, .nom b⟩] 48 8)
  else none

theorem twice_wf (b : Key) (hb : b = kV ∨ b = kW) : WFRef (twice b) (.nom kS) := by
  have h1 : WFRef (twice b) (.int 1 .unsigned 1) := .mk _ trivial (by simp [kids])
  have hu : WFRef (twice b) .unit := .mk _ trivial (by simp [kids])
  have hv : WFRef (twice b) (.vector (.int 1 .unsigned 1) vec) := .mk _ trivial (by
    intro c hc
    rw [List.mem_singleton.1 (show c ∈ [Ref.int 1 .unsigned 1] from hc)]; exact h1)
  have hV : WFRef (twice b) (.nom kV) := .mk _ ⟨by simp; decide, by decide⟩ (by
    intro c hc
    have hc : c ∈ [Ref.vector (.int 1 .unsigned 1) vec, .unit] := hc
    simp only [List.mem_cons, List.not_mem_nil, or_false] at hc
    rcases hc with rfl | rfl <;> assumption)
  have hW : WFRef (twice b) (.nom kW) := .mk _ ⟨by simp; decide, by decide⟩ (by
    intro c hc
    have hc : c ∈ [Ref.vector (.int 1 .unsigned 1) vec, .unit] := hc
    simp only [List.mem_cons, List.not_mem_nil, or_false] at hc
    rcases hc with rfl | rfl <;> assumption)
  refine .mk _ trivial ?_
  intro c hc
  have hc : c ∈ [Ref.nom kV, .nom b] := hc
  simp only [List.mem_cons, List.not_mem_nil, or_false] at hc
  rcases hc with rfl | rfl
  · exact hV
  · rcases hb with rfl | rfl <;> assumption

/-- The planned type. -/
def planned (addr : Ref → Comp) (h : Ctx) (head : Ref) : Option Ty :=
  (planC addr 8 h (fun _ => none) head []).bind fun x => tree x.1.wire 8 x.1.head

theorem planned_twice (addr : Ref → Comp) (b : Key) (hb : b = kV ∨ b = kW) :
    planned addr (twice b) (.nom kS) = planned (fun _ => []) (twice b) (.nom kS) := by
  rcases hb with rfl | rfl <;> rfl

/-- The number of terms of the variant in the second field. -/
def second : Ty → Nat
  | .struct (.cons _ _ _ (.cons _ _ (.variant ts _) _)) _ _ => ts.toList.length
  | _ => 0

/-- `struct a { w: uint8[2:5] }`, `struct a1 { w: uint16[2:5] }`, `variant V { x: a; y: a1 }`. -/
def kA : Key := ⟨.struct, [['a']]⟩
def kA1 : Key := ⟨.struct, [['a', '1']]⟩

def digits : Ctx := fun k =>
  if k = kA then some (.struct [⟨['w'], 0, .vector (.int 1 .unsigned 1) vec⟩] 16 8)
  else if k = kA1 then some (.struct [⟨['w'], 0, .vector (.int 2 .unsigned 2) vec⟩] 16 8)
  else if k = kV then some (.inl [⟨['x'], 1, [], .nom kA⟩, ⟨['y'], 2, [], .nom kA1⟩] vdata)
  else none

theorem digits_wf : WFRef digits (.nom kV) := by
  have h1 : WFRef digits (.int 1 .unsigned 1) := .mk _ trivial (by simp [kids])
  have h2 : WFRef digits (.int 2 .unsigned 2) := .mk _ trivial (by simp [kids])
  have hv1 : WFRef digits (.vector (.int 1 .unsigned 1) vec) := .mk _ trivial (by
    intro c hc
    rw [List.mem_singleton.1 (show c ∈ [Ref.int 1 .unsigned 1] from hc)]; exact h1)
  have hv2 : WFRef digits (.vector (.int 2 .unsigned 2) vec) := .mk _ trivial (by
    intro c hc
    rw [List.mem_singleton.1 (show c ∈ [Ref.int 2 .unsigned 2] from hc)]; exact h2)
  have hA : WFRef digits (.nom kA) := .mk _ trivial (by
    intro c hc
    rw [List.mem_singleton.1 (show c ∈ [Ref.vector (.int 1 .unsigned 1) vec] from hc)]; exact hv1)
  have hA1 : WFRef digits (.nom kA1) := .mk _ trivial (by
    intro c hc
    rw [List.mem_singleton.1 (show c ∈ [Ref.vector (.int 2 .unsigned 2) vec] from hc)]; exact hv2)
  refine .mk _ ⟨by simp; decide, by decide⟩ ?_
  intro c hc
  have hc : c ∈ [Ref.nom kA, .nom kA1] := hc
  simp only [List.mem_cons, List.not_mem_nil, or_false] at hc
  rcases hc with rfl | rfl <;> assumption

/-- Addresses of the four vectors that the structs are split with: 12 and 55, 2 and 66. -/
def addrs : Ref → Comp
  | .vector (.int 1 _ _) l => if l.wireMin = 2 then ['1', '2'] else ['5', '5']
  | .vector (.int 2 _ _) l => if l.wireMin = 2 then ['2'] else ['6', '6']
  | _ => ['9']

/-- The vectors that the structs are split with. -/
def made : List Ref :=
  [.vector (.int 1 .unsigned 1) (bareVecC digits (.int 1 .unsigned 1) (some 2) 2),
    .vector (.int 1 .unsigned 1) (bareVecC digits (.int 1 .unsigned 1) (some 5) 0),
    .vector (.int 2 .unsigned 2) (bareVecC digits (.int 2 .unsigned 2) (some 2) 2),
    .vector (.int 2 .unsigned 2) (bareVecC digits (.int 2 .unsigned 2) (some 5) 0)]

theorem addrs_end (r : Ref) : (addrs r).getLast? ∈ [some '2', some '5', some '6', some '9'] := by
  unfold addrs
  split <;> first | (split <;> decide) | decide

theorem digits_plannable : Plannable addrs digits 5 (.nom kV) [] := by
  refine ⟨fun k _ hu => ?_, fun k hk => by simp [onPath] at hk, fun v hv => Or.inl ?_⟩
  · obtain ⟨d, hd, -⟩ := NodeOK_nom.1 ((digits_wf.reach (uses_reach hu)).nodes 1).1
    have : k ∈ [kA, kA1, kV] := by
      simp only [digits] at hd
      split at hd
      · simp [*]
      · split at hd
        · simp [*]
        · split at hd
          · simp [*]
          · cases hd
    have hne : ∀ r, addrs r ≠ [] := fun r h => by
      have := addrs_end r
      rw [h] at this
      simp at this
    have hlast : ∀ (r : Ref) (p c : Comp), c.getLast? ∉ [some '2', some '5', some '6', some '9'] → c ≠ p ++ addrs r := by
      intro r p c hc e
      rw [e, List.getLast?_append_of_ne_nil _ (hne r)] at hc
      exact hc (addrs_end r)
    simp only [List.mem_cons, List.not_mem_nil, or_false] at this
    rcases this with rfl | rfl | rfl <;>
      exact ⟨by decide, fun r p e => hlast r p _ (by decide) (Option.some.inj e)⟩
  · have : firstVariant 5 digits (.nom kV) = some kV := by decide +kernel
    cases this.symm.trans hv
    decide +kernel

/-- The widths of the elements of the vectors in the terms. -/
def widths : Ty → List Nat
  | .variant ts _ => ts.toList.map fun t =>
    match t.ty with
    | .struct (.cons _ _ (.vector e _) _) _ _ => e.size
    | _ => 0
  | _ => []

end C54

open C54 in
/-- A variant that is used twice is split twice, although vectors are only ever split in the first variant; if one of the two
is a variant of another name with the same terms, it is not.  So the planned type does not depend on the tree of the
type only, whatever the addresses are. -/
theorem C54_violated (addr : Ref → Comp) : ∃ (h h' : Ctx) (head : Ref) (t : Ty), WFRef h head ∧ WFRef h' head ∧
    tree h 5 head = some t ∧ tree h' 5 head = some t ∧ t.noOut ∧
    ∃ x y, planned addr h head = some x ∧ planned addr h' head = some y ∧ x ≠ y := by
  refine ⟨twice kV, twice kW, .nom kS, _, twice_wf _ (.inl rfl), twice_wf _ (.inr rfl), rfl, rfl, ?_, ?_⟩
  · simp [Ty.noOut, Fields.noOut, Terms.noOut]
  · rw [planned_twice addr _ (.inl rfl), planned_twice addr _ (.inr rfl)]
    have h1 : (planned (fun _ => []) (twice kV) (.nom kS)).map second = some 3 := by decide +kernel
    have h2 : (planned (fun _ => []) (twice kW) (.nom kS)).map second = some 2 := by decide +kernel
    obtain ⟨x, hx, ex⟩ := Option.map_eq_some_iff.1 h1
    obtain ⟨y, hy, ey⟩ := Option.map_eq_some_iff.1 h2
    refine ⟨x, y, hx, hy, fun e => ?_⟩
    rw [e, ey] at ex
    cases ex

open C54 in
/-- It is not enough that different types have different addresses: `a` with 12 is `a1` with 2, and the term `x` gets the
vector of the term `y`. -/
theorem C54_violated_names : ∃ (addr : Ref → Comp) (h : Ctx) (head : Ref) (t : Ty) (p : Proto), WFRef h head ∧
    tree h 5 head = some t ∧ t.noOut ∧ Plannable addr h 5 head [] ∧ (made.map addr).Nodup ∧ plan t [] = some p ∧
    ∃ x, planned addr h head = some x ∧ x ≠ p.head := by
  refine ⟨addrs, digits, .nom kV, _, _, digits_wf, rfl, ?_, digits_plannable, by decide +kernel, rfl, ?_⟩
  · simp [Ty.noOut, Fields.noOut, Terms.noOut]
  · have h1 : (planned addrs digits (.nom kV)).map widths = some [1, 2, 2, 2] := by decide +kernel
    obtain ⟨x, hx, ex⟩ := Option.map_eq_some_iff.1 h1
    refine ⟨x, hx, fun e => ?_⟩
    have h2 : widths x ≠ [1, 2, 2, 2] := by rw [e]; decide +kernel
    exact h2 ex

end PJ
