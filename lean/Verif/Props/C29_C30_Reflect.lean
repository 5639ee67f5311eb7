import Verif.Lemmas.Unreflect
import Verif.Model.BinCompat
/-!
# C29, C30: reflection of protocols

C29: `unreflect` after `reflect` gives the same protocol, except for `wire_min_length` (and other numbers
that nothing reads).  C30: the pool is well founded and has every type once.
-/
namespace PJ

/-! ## Trees -/

mutual
theorem tree_forget (ctx ctx' : Ctx) (n : Nat) (r : Ref) (h : Has ctx ctx' r) :
    tree ctx' n r.forget = (tree ctx n r).map Ty.forget := by
  match n, r with
  | 0, _ => simp [tree]
  | _ + 1, .int .. | _ + 1, .float .. | _ + 1, .unit => simp [tree, Ref.forget, Ty.forget]
  | n + 1, .array e len esz al =>
    have ih := tree_forget ctx ctx' n e (fun k hk => h k (.step (by simp [kids]) hk))
    simp only [Ref.forget, tree, ih, Option.map_map]
    rfl
  | n + 1, .vector e l =>
    have ih := tree_forget ctx ctx' n e (fun k hk => h k (.step (by simp [kids]) hk))
    simp only [Ref.forget, tree, ih, Option.map_map]
    rfl
  | n + 1, .nom k =>
    have hk := h k (.refl _)
    simp only [Ref.forget, tree]
    cases hd : ctx k with
    | none => simp [hk, hd]
    | some d =>
      have hsub : ∀ c ∈ d.kids, Has ctx ctx' c := fun c hc q hq =>
        h q (.step (by simp only [kids, hd]; exact hc) hq)
      rw [hk, hd]
      cases d with
      | struct fs size al =>
        have := treeFields_forget ctx ctx' n fs (fun f hf => hsub _ (List.mem_map_of_mem hf))
        simp only [Data.forget, Option.map_some, this, Option.map_map]
        rfl
      | inl ts d =>
        have := treeTerms_forget ctx ctx' n ts (fun f hf => hsub _ (List.mem_map_of_mem hf))
        simp only [Data.forget, Option.map_some, this, Option.map_map]
        rfl
      | out ts d =>
        have := treeTerms_forget ctx ctx' n ts (fun f hf => hsub _ (List.mem_map_of_mem hf))
        simp only [Data.forget, Option.map_some, this, Option.map_map]
        rfl
  termination_by (n, 0)
theorem treeFields_forget (ctx ctx' : Ctx) (n : Nat) (fs : List (FieldD Ref))
    (h : ∀ f ∈ fs, Has ctx ctx' f.ty) :
    treeFields (tree ctx' n) (fs.map fun f => { f with ty := f.ty.forget }) =
      (treeFields (tree ctx n) fs).map Fields.forget := by
  match fs with
  | [] => simp [treeFields, Fields.forget]
  | f :: fs =>
    simp only [List.map_cons, treeFields, tree_forget ctx ctx' n f.ty (h f (by simp)),
      treeFields_forget ctx ctx' n fs (fun f hf => h f (by simp [hf]))]
    cases tree ctx n f.ty <;> cases treeFields (tree ctx n) fs <;> simp [Fields.forget]
  termination_by (n, fs.length + 1)
theorem treeTerms_forget (ctx ctx' : Ctx) (n : Nat) (fs : List (TermD Ref Attr))
    (h : ∀ f ∈ fs, Has ctx ctx' f.ty) :
    treeTerms (tree ctx' n) (fs.map fun f => { f with ty := f.ty.forget }) =
      (treeTerms (tree ctx n) fs).map Terms.forget := by
  match fs with
  | [] => simp [treeTerms, Terms.forget]
  | f :: fs =>
    simp only [List.map_cons, treeTerms, tree_forget ctx ctx' n f.ty (h f (by simp)),
      treeTerms_forget ctx ctx' n fs (fun f hf => h f (by simp [hf]))]
    cases tree ctx n f.ty <;> cases treeTerms (tree ctx n) fs <;> simp [Terms.forget]
  termination_by (n, fs.length + 1)
end

mutual
theorem readVal_forget (m : Mem) (t : Ty) (a : Nat) : readVal m t.forget a = readVal m t a := by
  match t with
  | .int .. | .float .. | .unit => rfl
  | .struct fs _ _ => simp only [Ty.forget, readVal, readFields_forget m fs a]
  | .variant ts l => simp only [Ty.forget, readVal, readTerm_forget m ts]
  | .array e n esz al => simp only [Ty.forget, readVal, readVal_forget m e]
  | .vector e l => simp only [Ty.forget, readVal, readVal_forget m e]; rfl
  termination_by structural t
theorem readFields_forget (m : Mem) (fs : Fields) (a : Nat) :
    readFields m fs.forget a = readFields m fs a := by
  match fs with
  | .nil => rfl
  | .cons n o t r =>
    simp only [Fields.forget, readFields, readVal_forget m t, readFields_forget m r]
  termination_by structural fs
theorem readTerm_forget (m : Mem) (ts : Terms) (raw a : Nat) :
    readTerm m ts.forget raw a = readTerm m ts raw a := by
  match ts with
  | .nil => rfl
  | .cons n g as t r =>
    simp only [Terms.forget, readTerm, readVal_forget m t, readTerm_forget m r]
  termination_by structural ts
end

/-! ## C30 -/

/-- The result of `reflect` on a whole protocol. -/
theorem reflectProto_inv (ctx : Ctx) (fuel : Nat) (head : Ref) (b : Nat) (p : PProto)
    (wf : WFRef ctx head) (h : reflectProto ctx fuel head b = some p) :
    ∃ (rs : List Ref) (s : RState) (k : Nat), RInv ctx s rs ∧ s.pool = p.types ∧ p.bufOff = b ∧
      (∀ x, x ∈ rs ↔ Reach ctx head x) ∧ rs[k]? = some head ∧ p.head = i32 k := by
  simp only [reflectProto] at h
  split at h
  · simp at h
  · rename_i i s hs
    simp only [Option.some.injEq] at h
    subst h
    obtain ⟨new, h1, h2, k, h3, h4⟩ := reflect_inv ctx fuel head _ [] i s wf (RInv.nil ctx) hs
    rw [List.nil_append] at h1 h3
    exact ⟨new, s, k, h1, rfl, rfl,
      fun x => ⟨h2 x, fun hx => h1.closed (List.mem_of_getElem? h3) hx⟩, h3, h4⟩

/-- Reflection of a complete type ends. -/
theorem C30_reflect_total (ctx : Ctx) (head : Ref) (b : Nat) (wf : WFRef ctx head) :
    ∃ n, ∀ fuel, n ≤ fuel → ∃ p, reflectProto ctx fuel head b = some p := by
  obtain ⟨n, h⟩ := reflect_total ctx head wf
  refine ⟨n, fun fuel hf => ?_⟩
  obtain ⟨⟨i, s⟩, hs⟩ := h fuel hf ⟨[], []⟩
  exact ⟨⟨0, i, b, s.pool⟩, by simp only [reflectProto, hs]⟩

/-- Every child reference is negative and stays inside the pool, and so is the head. -/
theorem C30_indices (ctx : Ctx) (fuel : Nat) (head : Ref) (b : Nat) (p : PProto)
    (wf : WFRef ctx head) (h : reflectProto ctx fuel head b = some p)
    (hl : p.types.length < 2 ^ 31) :
    (0 ≤ p.head ∧ p.head < p.types.length) ∧
    ∀ (i : Nat) (e : PNode), p.types[i]? = some e → ∀ c ∈ e.kids, c < 0 ∧ 0 ≤ (i : Int) + c := by
  obtain ⟨rs, s, k, hi, hp, _, hx, hk, hh⟩ := reflectProto_inv ctx fuel head b p wf h
  have hlen : rs.length = p.types.length := by rw [← hp, hi.len]
  have hkl := lt_of_getElem? hk
  constructor
  · rw [hh, i32_small k (by omega)]; omega
  · intro i e he c hc
    have hil : i < rs.length := by rw [hlen]; exact lt_of_getElem? he
    obtain ⟨ks, g1, g2, _, g4⟩ := hi.desc i rs[i] (List.getElem?_eq_getElem hil)
    rw [hp, he] at g4
    have hkl : (ks.map fun k => i32 (k : Nat)).length = (kids ctx rs[i]).length := by
      have := congrArg List.length g2
      simpa using this
    rw [entry_kids ctx _ _ i e hkl g4.symm, map_relative ks i g1 (by omega)] at hc
    obtain ⟨k', hk', rfl⟩ := List.mem_map.1 hc
    have := g1 k' hk'
    omega

/-- The pool has every type inside the protocol exactly once: entry `j` is the only one for `rs[j]`, and
unreflecting it gives that type. -/
theorem C30_once (ctx : Ctx) (fuel : Nat) (head : Ref) (b : Nat) (p : PProto)
    (wf : WFRef ctx head) (h : reflectProto ctx fuel head b = some p)
    (hl : p.types.length < 2 ^ 31) :
    ∃ rs : List Ref, rs.Nodup ∧ rs.length = p.types.length ∧ (∀ x, x ∈ rs ↔ Reach ctx head x) ∧
      ∀ (j : Nat) (r : Ref), rs[j]? = some r →
        ∃ c, unreflect p.types (j + 1) j (fun _ => none) = some (r.forget, c) := by
  obtain ⟨rs, s, k, hi, hp, _, hx, hk, hh⟩ := reflectProto_inv ctx fuel head b p wf h
  have hlen : rs.length = p.types.length := by rw [← hp, hi.len]
  have hn : ∀ r ∈ rs, NodeOK ctx r := fun r hr => by
    cases wf.reach ((hx r).1 hr) with | mk _ node _ => exact node
  refine ⟨rs, hi.nodup, hlen, hx, fun j r hr => ?_⟩
  obtain ⟨c, h1, _⟩ := unreflect_inv ctx s rs hi hn (by omega) j (j + 1) (by omega) r hr
    (fun _ => none) (fun _ => .inl rfl)
  exact ⟨c, by rw [← hp]; exact h1⟩

theorem build_total (c : Ctx) (e : PNode) (rs : List Ref) (h : rs.length = e.kids.length) :
    ∃ o, build c e rs = some o := by
  cases e with
  | array e n esz al =>
    match rs, h with
    | [r], _ => exact ⟨_, rfl⟩
  | vector e l =>
    match rs, h with
    | [r], _ => exact ⟨_, rfl⟩
  | _ => exact ⟨_, rfl⟩

theorem unreflectAll_total (pool : List PNode) (fuel : Nat) (j : Nat) (is : List Int)
    (h : ∀ i ∈ is, ∀ c, ∃ o, unreflect pool fuel (i32 ((j : Int) + i)) c = some o) (c : Ctx) :
    ∃ rs c', unreflectAll (unreflect pool fuel) j is c = some (rs, c') ∧ rs.length = is.length := by
  induction is generalizing c with
  | nil => exact ⟨[], c, by simp [unreflectAll], rfl⟩
  | cons i is ih =>
    obtain ⟨⟨r, c1⟩, h1⟩ := h i (by simp) c
    obtain ⟨rs, c2, h2, h3⟩ := ih (fun i hi => h i (by simp [hi])) c1
    exact ⟨r :: rs, c2, by simp [unreflectAll, h1, h2], by simp [h3]⟩

/-- Unreflecting ends on every pool with such references, wherever the pool comes from. -/
theorem C30_unreflect_total (pool : List PNode) (hl : pool.length < 2 ^ 31)
    (h : ∀ (i : Nat) (e : PNode), pool[i]? = some e → ∀ c ∈ e.kids, c < 0 ∧ 0 ≤ (i : Int) + c)
    (j : Nat) (hj : j < pool.length) (ctx : Ctx) :
    ∃ o, unreflect pool (j + 1) j ctx = some o := by
  suffices ∀ fuel, j < fuel → ∀ ctx, ∃ o, unreflect pool fuel j ctx = some o from
    this (j + 1) (by omega) ctx
  induction j using Nat.strongRecOn with
  | ind j ih =>
    intro fuel hf ctx
    match fuel, hf with
    | fuel + 1, hf =>
      have he : pool[j]? = some pool[j] := List.getElem?_eq_getElem hj
      obtain ⟨rs, c', h1, h2⟩ := unreflectAll_total pool fuel j pool[j].kids (fun i hi c => by
        have hc := h j _ he i hi
        obtain ⟨k, hk⟩ : ∃ k : Nat, (j : Int) + i = k := ⟨((j : Int) + i).toNat, by omega⟩
        rw [hk, i32_small k (by omega)]
        exact ih k (by omega) (by omega) fuel (by omega) c) ctx
      obtain ⟨o, ho⟩ := build_total c' pool[j] rs h2
      have hp : poolAt pool (j : Int) = some pool[j] := by simp [poolAt]
      exact ⟨o, by simp only [unreflect, hp, h1, ho]⟩

/-! ## C29 -/

theorem unreflectAll_defined (pool : List PNode) (fuel : Nat) (j : Int) (is : List Int) (c : Ctx) (o)
    (h : unreflectAll (unreflect pool fuel) j is c = some o) :
    ∀ i ∈ is, ∃ c' o', unreflect pool fuel (i32 (j + i)) c' = some o' := by
  induction is generalizing c o with
  | nil => intro i hi; cases hi
  | cons i is ih =>
    unfold unreflectAll at h
    split at h
    · cases h
    · rename_i r c1 h1
      split at h
      · cases h
      · rename_i rs c2 h2
        intro i' hi
        rcases List.mem_cons.1 hi with rfl | hi
        · exact ⟨c, _, h1⟩
        · exact ih _ _ h2 i' hi

/-- Conversely, unreflecting any pool is only defined at an index inside of it, negative ones are outside, and only if
this holds of everything the entry refers to. -/
theorem C30_unreflect_inside (pool : List PNode) (fuel : Nat) (index : Int) (ctx : Ctx) (o : Ref × Ctx)
    (h : unreflect pool fuel index ctx = some o) : 0 ≤ index ∧ index < pool.length ∧
      ∀ e, pool[index.toNat]? = some e → ∀ c ∈ e.kids, 0 ≤ i32 (index + c) ∧ i32 (index + c) < pool.length := by
  have key : ∀ fuel index ctx o, unreflect pool fuel index ctx = some o → 0 ≤ index ∧ index < pool.length := by
    intro fuel index ctx o h
    cases fuel with
    | zero => cases h
    | succ fuel =>
      unfold unreflect poolAt at h
      by_cases h0 : 0 ≤ index
      · rw [if_pos h0] at h
        cases hg : pool[index.toNat]? with
        | none => rw [hg] at h; cases h
        | some e =>
          have := (List.getElem?_eq_some_iff.1 hg).1
          omega
      · rw [if_neg h0] at h
        cases h
  refine ⟨(key _ _ _ _ h).1, (key _ _ _ _ h).2, fun e he c hc => ?_⟩
  have h0 := (key _ _ _ _ h).1
  cases fuel with
  | zero => cases h
  | succ fuel =>
    unfold unreflect poolAt at h
    rw [if_pos h0, he] at h
    cases ha : unreflectAll (unreflect pool fuel) index e.kids ctx with
    | none => simp only [ha] at h; cases h
    | some rs =>
      obtain ⟨c', o', h'⟩ := unreflectAll_defined pool fuel index e.kids ctx rs ha c hc
      exact key _ _ _ _ h'

/-- Unreflecting gives the same head, buffer offset and definitions of all nominal types inside it, up to
`wire_min_length`. -/
theorem C29_round_trip_partial (ctx : Ctx) (fuel : Nat) (head : Ref) (b : Nat) (p : PProto)
    (wf : WFRef ctx head) (h : reflectProto ctx fuel head b = some p)
    (hl : p.types.length < 2 ^ 31) :
    ∃ ctx', unreflectProto p.types.length p = some (head.forget, b, ctx') ∧
      ∀ k, Reach ctx head (.nom k) → ctx' k = (ctx k).map Data.forget := by
  obtain ⟨rs, s, k, hi, hp, hb, hx, hk, hh⟩ := reflectProto_inv ctx fuel head b p wf h
  have hlen : rs.length = p.types.length := by rw [← hp, hi.len]
  have hkl := lt_of_getElem? hk
  have hn : ∀ r ∈ rs, NodeOK ctx r := fun r hr => by
    cases wf.reach ((hx r).1 hr) with | mk _ node _ => exact node
  obtain ⟨c, h1, _, h3, _⟩ := unreflect_inv ctx s rs hi hn (by omega) k p.types.length (by omega) head hk
    (fun _ => none) (fun _ => .inl rfl)
  rw [hp, ← i32_small k (by omega), ← hh] at h1
  exact ⟨c, by simp only [unreflectProto, h1, hb], h3⟩

/-- The unreflected protocol reads every message as the original one. -/
theorem C29_interpretation (ctx : Ctx) (fuel : Nat) (head : Ref) (b : Nat) (p : PProto)
    (wf : WFRef ctx head) (h : reflectProto ctx fuel head b = some p)
    (hl : p.types.length < 2 ^ 31) (n : Nat) (t : Ty) (ht : tree ctx n head = some t) :
    ∃ head' ctx' t', unreflectProto p.types.length p = some (head', b, ctx') ∧
      tree ctx' n head' = some t' ∧ ∀ m a, readVal m t' a = readVal m t a := by
  obtain ⟨ctx', h1, h2⟩ := C29_round_trip_partial ctx fuel head b p wf h hl
  refine ⟨_, ctx', t.forget, h1, ?_, fun m a => readVal_forget m t a⟩
  rw [tree_forget ctx ctx' n head h2, ht]
  rfl

/-! ## Non-trivial case -/

namespace Sample

def reflVec : VecL :=
  { minLen := 3, maxLen := some 9, wireMin := 3, ppl := 0, lenOff := 0, lenSize := 1, refOff := 1,
    refSize := 8, mode := .offset, inlOff := 1, parOff := 9, elemW := 5, size := 16, align := 1 }

def reflKeyS : Key := ⟨.struct, [['n'], ['S']]⟩
def reflKeyV : Key := ⟨.out, [['n'], ['V']]⟩

/-- `struct S { a: int32; b: float32; }`, `variant V { x: S; y: S[3:9]; }`, the struct is shared. -/
def reflCtx : Ctx := fun k =>
  if k = reflKeyS then some (.struct [⟨['a'], 0, .int 4 .signed 1⟩, ⟨['b'], 4, .float 4 1⟩] 8 1)
  else if k = reflKeyV then
    some (.out [⟨['x'], 1, [], .nom reflKeyS⟩,
      ⟨['y'], 2, [.split false 3 [['_']]], .vector (.nom reflKeyS) reflVec⟩,
      ⟨['y'], 3, [.split true 3 [['_']]], .vector (.nom reflKeyS) reflVec⟩] ⟨1, 1, 1, 9, 1⟩)
  else none

theorem reflCtx_wf : WFRef reflCtx (.nom reflKeyV) := by
  have hi : WFRef reflCtx (.int 4 .signed 1) := .mk _ trivial (by simp [kids])
  have hf : WFRef reflCtx (.float 4 1) := .mk _ (.inl rfl) (by simp [kids])
  have hs : WFRef reflCtx (.nom reflKeyS) := .mk _ trivial (by
    intro c hc
    rcases List.mem_cons.1 (show c ∈ [Ref.int 4 .signed 1, .float 4 1] from hc) with rfl | hc
    · exact hi
    · rw [List.mem_singleton.1 hc]; exact hf)
  have hv : WFRef reflCtx (.vector (.nom reflKeyS) reflVec) := .mk _ trivial (by
    intro c hc
    rw [List.mem_singleton.1 (show c ∈ [Ref.nom reflKeyS] from hc)]; exact hs)
  refine .mk _ ⟨by simp; decide, by decide⟩ ?_
  intro c hc
  have hc : c ∈ [Ref.nom reflKeyS, .vector (.nom reflKeyS) reflVec, .vector (.nom reflKeyS) reflVec] := hc
  simp only [List.mem_cons, List.not_mem_nil, or_false] at hc
  rcases hc with rfl | rfl | rfl <;> assumption

/-- Five types: int, float, the struct, the vector, the variant. -/
theorem reflCtx_pool : (reflectProto reflCtx 4 (.nom reflKeyV) 9).map (fun p => (p.head, p.types.length)) =
    some (4, 5) := by decide +kernel

end Sample

example : ∃ p, reflectProto Sample.reflCtx 4 (.nom Sample.reflKeyV) 9 = some p ∧
    p.types.length < 2 ^ 31 ∧ ∃ t, tree Sample.reflCtx 4 (.nom Sample.reflKeyV) = some t := by
  have h := Sample.reflCtx_pool
  match hp : reflectProto Sample.reflCtx 4 (.nom Sample.reflKeyV) 9 with
  | none => rw [hp] at h; simp at h
  | some p =>
    rw [hp] at h
    simp only [Option.map_some, Option.some.injEq, Prod.mk.injEq] at h
    exact ⟨p, rfl, by rw [h.2]; decide, _, rfl⟩

/-- `wire_min_length` is lost: the protocol is not the same. -/
theorem C29_violated : ∃ (ctx : Ctx) (head : Ref) (p : PProto),
    WFRef ctx head ∧ reflectProto ctx 2 head 0 = some p ∧
      ∃ head' ctx', unreflectProto 2 p = some (head', 0, ctx') ∧ head' ≠ head := by
  refine ⟨fun _ => none, .vector (.int 1 .unsigned 1) Sample.reflVec, _, ?_, rfl, _, _, rfl, by decide⟩
  exact .mk _ trivial (by
    intro c hc
    rw [List.mem_singleton.1 (show c ∈ [Ref.int 1 .unsigned 1] from hc)]
    exact .mk _ trivial (by simp [kids]))

end PJ
