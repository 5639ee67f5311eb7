import Verif.Lemmas.FnCache
/-!
# Lemmas about the pass that makes functions
-/
namespace PJ

/-! ## Bodies talk about smaller types -/

mutual
/-- How deep a type is nested. -/
def Ty.nest : Ty → Nat
  | .int .. => 0
  | .float .. => 0
  | .unit => 0
  | .struct fs _ _ => fs.nest + 1
  | .variant ts _ => ts.nest + 1
  | .array e _ _ _ => e.nest + 1
  | .vector e _ => e.nest + 1
def Fields.nest : Fields → Nat
  | .nil => 0
  | .cons _ _ t r => max t.nest r.nest
def Terms.nest : Terms → Nat
  | .nil => 0
  | .cons _ _ _ t r => max t.nest r.nest
end

/-- The destination type of an operation. -/
def Op.dst : Op → Ty
  | .transcode d _ _ _ => d
  | .default d _ => d

theorem fieldOps_nest : ∀ (dfs sfs : Fields) (p : Path) (hs : Handlers) (o : Op),
    o ∈ fieldOps dfs sfs p hs → o.dst.nest ≤ dfs.nest
  | .nil, _, _, _, _, h => by simp [fieldOps] at h
  | .cons c off t r, sfs, p, hs, o, h => by
    simp only [fieldOps, List.mem_cons] at h
    simp only [Fields.nest]
    rcases h with h | h
    · have : o.dst = t := by
        subst h
        cases sfs.findLast c <;> rfl
      rw [this]
      omega
    · have := fieldOps_nest r sfs p hs o h
      omega

theorem terms_nest : ∀ (ts : Terms) (t : Term), t ∈ ts.toList → t.ty.nest ≤ ts.nest
  | .nil, _, h => by simp [Terms.toList] at h
  | .cons n g as ty r, t, h => by
    simp only [Terms.toList, List.mem_cons] at h
    simp only [Terms.nest]
    rcases h with rfl | h
    · simp only; omega
    · have := terms_nest r t h
      omega

theorem dfltOps_nest {dts : Terms} {dl : VarL} {sty : Ty} {o : Op} (h : o ∈ dfltOps dts dl sty) :
    o.dst.nest ≤ dts.nest := by
  simp only [dfltOps, List.mem_map, Option.mem_toList] at h
  obtain ⟨t, ht, rfl⟩ := h
  exact terms_nest dts t (List.mem_of_getElem? ht)

theorem termOps_nest {dts : Terms} {dl : VarL} {t : Term} {o : Op} (h : o ∈ termOps dts dl t) :
    o.dst.nest ≤ dts.nest := by
  simp only [termOps] at h
  split at h
  · simp only [List.mem_map, List.mem_filter] at h
    obtain ⟨u, ⟨hu, _⟩, rfl⟩ := h
    exact terms_nest dts u hu
  · exact dfltOps_nest h

theorem fnOps_nest {k : FnKey} {o : Op} (h : o ∈ fnOps k) : o.dst.nest < k.dst.nest := by
  obtain ⟨d, s, p, hs, b⟩ := k
  cases d with
  | int => simp [fnOps] at h
  | float => simp [fnOps] at h
  | unit => simp [fnOps] at h
  | struct dfs dsz dal =>
    simp only [fnOps] at h
    split at h
    · simp at h
    · have := fieldOps_nest _ _ _ _ _ h
      simp only [Ty.nest]; omega
  | variant dts dl =>
    simp only [fnOps] at h
    split at h
    · simp at h
    · rename_i sts sl hs'
      have : o.dst.nest ≤ dts.nest := by
        cases p with
        | nil =>
          simp only [variantOps, List.mem_append, List.mem_flatMap] at h
          rcases h with h | ⟨t, _, h⟩
          · exact dfltOps_nest h
          · exact termOps_nest h
        | cons c p =>
          simp only [variantOps] at h
          split at h
          · exact termOps_nest h
          · simp at h
      simp only [Ty.nest]; omega
  | array de dn desz dal =>
    simp only [fnOps] at h
    split at h
    · simp at h
    · simp only [List.mem_cons, List.not_mem_nil, or_false] at h
      rcases h with rfl | rfl <;> simp [Op.dst, Ty.nest]
  | vector de dl =>
    simp only [fnOps] at h
    split at h
    · simp only [List.mem_cons, List.not_mem_nil, or_false] at h
      subst h; simp [Op.dst, Ty.nest]
    · simp at h

theorem lowerOp_dst {b : BufTy} {o : Op} {k : FnKey} (h : (lowerOp b o).key = some k) :
    k.dst = o.dst := by
  rw [(lowerOp_key h).2.2]
  cases o <;> rfl

/-! ## The pass ends -/

/-- The number of operations when everything is inlined, to a depth. -/
def weight (b : BufTy) : Nat → Op → Nat
  | 0, _ => 1
  | n + 1, o =>
    1 + match (lowerOp b o).key with
      | none => 0
      | some k => ((fnOps k).map (weight b n)).sum

theorem weight_stable (b : BufTy) : ∀ (n m : Nat) (o : Op), o.dst.nest < n → o.dst.nest < m →
    weight b n o = weight b m o
  | 0, _, _, h, _ => by omega
  | _ + 1, 0, _, _, h => by omega
  | n + 1, m + 1, o, h1, h2 => by
    simp only [weight]
    cases hk : (lowerOp b o).key with
    | none => rfl
    | some k =>
      simp only
      congr 2
      apply List.map_congr_left
      intro o' ho'
      have := fnOps_nest ho'
      rw [lowerOp_dst hk] at this
      exact weight_stable b n m o' (by omega) (by omega)

/-- The number of operations when everything is inlined. -/
def opWeight (b : BufTy) (o : Op) : Nat := weight b (o.dst.nest + 1) o

theorem opWeight_call {b : BufTy} {o : Op} {k : FnKey} (hk : (lowerOp b o).key = some k) :
    opWeight b o = 1 + ((fnOps k).map (opWeight b)).sum := by
  simp only [opWeight, weight, hk]
  congr 2
  apply List.map_congr_left
  intro o' ho'
  have := fnOps_nest ho'
  rw [lowerOp_dst hk] at this
  exact weight_stable b _ _ o' (by omega) (by omega)

theorem opWeight_pos (b : BufTy) (o : Op) : 0 < opWeight b o := by
  simp only [opWeight, weight]; omega

/-- The operations left to lower, with everything inlined. -/
def todoWeight (l : List (FnName × BufTy × Op)) : Nat := (l.map fun x => opWeight x.2.1 x.2.2).sum

theorem PassStep.weight {base : FnKey → FnName} {g g' : Gen} (h : PassStep base g g') :
    todoWeight g'.todo < todoWeight g.todo := by
  cases h with
  | inline hg hk =>
    rename_i u v c b o
    have := opWeight_pos b o
    simp only [hg, todoWeight, List.map_append, List.map_cons, List.sum_append, List.sum_cons]
    omega
  | hit hg hk hc =>
    rename_i u v c b o k n
    have := opWeight_pos b o
    simp only [hg, todoWeight, List.map_append, List.map_cons, List.sum_append, List.sum_cons]
    omega
  | create hg hk hc hs =>
    rename_i u v c b o k s
    have h1 := opWeight_call hk
    have h2 := (lowerOp_key hk).2.1
    simp only [hg, todoWeight, List.map_append, List.map_cons, List.sum_append, List.sum_cons,
      List.map_map]
    have h3 : ((fnOps k).map ((fun x : FnName × BufTy × Op => opWeight x.2.1 x.2.2) ∘ fun o =>
        (base k ++ '_' :: decimalName s, k.buf, o))) = (fnOps k).map (opWeight b) := by
      apply List.map_congr_left
      intro o' _
      simp [h2]
    rw [h3]
    omega

theorem PassRun.weight {base : FnKey → FnName} {es : Entries} {n : Nat} {g : Gen}
    (h : PassRun base es n g) : n + todoWeight g.todo ≤ todoWeight es := by
  induction h with
  | start => simp [Gen.start]
  | step _ hs ih => have := hs.weight; omega

/-! ## Names -/

theorem decimalName_inj {a b : Nat} (h : decimalName a = decimalName b) : a = b := by
  have := congrArg (fun l => Nat.ofDigitChars 10 l 0) h
  simpa [decimalName, Nat.ofDigitChars_ten_toDigits] using this

theorem split_last {a b c d : List Char} (hc : '_' ∉ c) (hd : '_' ∉ d)
    (h : a ++ '_' :: c = b ++ '_' :: d) : a = b ∧ c = d := by
  have h1 := congrArg List.reverse h
  simp only [List.reverse_append, List.reverse_cons, List.append_assoc, List.cons_append,
    List.nil_append] at h1
  have hc' : ∀ x ∈ c.reverse, (x != '_') = true := by
    intro x hx; simp only [bne_iff_ne]; rintro rfl; exact hc (List.mem_reverse.1 hx)
  have hd' : ∀ x ∈ d.reverse, (x != '_') = true := by
    intro x hx; simp only [bne_iff_ne]; rintro rfl; exact hd (List.mem_reverse.1 hx)
  have h2 := congrArg (List.takeWhile (· != '_')) h1
  have h3 := congrArg (List.dropWhile (· != '_')) h1
  rw [List.takeWhile_append_of_pos hc', List.takeWhile_append_of_pos hd'] at h2
  rw [List.dropWhile_append_of_pos hc', List.dropWhile_append_of_pos hd'] at h3
  simp at h2 h3
  exact ⟨h3, h2⟩

theorem fnName_inj {a b : FnName} {s t : Nat}
    (h : a ++ '_' :: decimalName s = b ++ '_' :: decimalName t) : a = b ∧ s = t := by
  have := split_last Nat.underscore_not_in_toDigits Nat.underscore_not_in_toDigits h
  exact ⟨this.1, decimalName_inj this.2⟩

/-! ## The invariant -/

/-- The operation `o` of function `c` is waiting, needs no function, or has been linked. -/
def Settled (g : Gen) (c : FnName) (b : BufTy) (o : Op) : Prop :=
  (c, b, o) ∈ g.todo ∨ (lowerOp b o).key = none ∨
    ∃ k n, (lowerOp b o).key = some k ∧ ((c, k), n) ∈ g.links

structure PassInv (base : FnKey → FnName) (es : Entries) (g : Gen) : Prop where
  names : (g.fns.map (·.1)).Nodup
  keys : (g.fns.map (·.2)).Nodup
  ok : ∀ f ∈ g.fns, KeyOK f.2
  shape : ∀ f ∈ g.fns, ∃ s, f.1 = base f.2 ++ '_' :: decimalName s ∧ (base f.2, s) ∈ g.used
  len : g.used.length = g.fns.length
  links : ∀ l ∈ g.links, (l.2, l.1.2) ∈ g.fns
  called : ∀ f ∈ g.fns, ∃ l ∈ g.links, l.2 = f.1
  ops : ∀ f ∈ g.fns, ∀ o ∈ fnOps f.2, Settled g f.1 f.2.buf o
  entries : ∀ e ∈ es, Settled g e.1 e.2.1 e.2.2

theorem cached_mem {g : Gen} {k : FnKey} {n : FnName} (h : g.cached k = some n) : (n, k) ∈ g.fns := by
  simp only [Gen.cached, Option.map_eq_some_iff] at h
  obtain ⟨⟨m, k'⟩, h1, rfl⟩ := h
  have h2 := List.find?_some h1
  simp only [decide_eq_true_eq] at h2
  exact h2 ▸ List.mem_of_find?_eq_some h1

theorem cached_none {g : Gen} {k : FnKey} (h : g.cached k = none) : ∀ f ∈ g.fns, f.2 ≠ k := by
  simp only [Gen.cached, Option.map_eq_none_iff, List.find?_eq_none, decide_eq_true_eq] at h
  exact h

theorem Settled.mono {g g' : Gen} {c : FnName} {b : BufTy} {o : Op} {c' : FnName} {b' : BufTy} {o' : Op}
    {u v : List (FnName × BufTy × Op)}
    (hg : g.todo = u ++ (c', b', o') :: v) (hu : ∀ x ∈ u, x ∈ g'.todo) (hv : ∀ x ∈ v, x ∈ g'.todo)
    (hl : ∀ l ∈ g.links, l ∈ g'.links)
    (hn : (lowerOp b' o').key = none ∨ ∃ k n, (lowerOp b' o').key = some k ∧ ((c', k), n) ∈ g'.links)
    (h : Settled g c b o) : Settled g' c b o := by
  rcases h with h | h | ⟨k, n, h1, h2⟩
  · rw [hg] at h
    simp only [List.mem_append, List.mem_cons] at h
    rcases h with h | h | h
    · exact .inl (hu _ h)
    · simp only [Prod.mk.injEq] at h
      obtain ⟨rfl, rfl, rfl⟩ := h
      exact .inr hn
    · exact .inl (hv _ h)
  · exact .inr (.inl h)
  · exact .inr (.inr ⟨k, n, h1, hl _ h2⟩)

theorem PassStep.inv {base : FnKey → FnName} {es : Entries} {g g' : Gen} (h : PassStep base g g')
    (hi : PassInv base es g) : PassInv base es g' := by
  cases h with
  | inline hg hk =>
    rename_i u v c b o
    have hm : ∀ c' b' o', Settled g c' b' o' → Settled { g with todo := u ++ v } c' b' o' :=
      fun c' b' o' => Settled.mono hg (by simp +contextual) (by simp +contextual)
        (fun l hl => hl) (.inl hk)
    exact { names := hi.names, keys := hi.keys, ok := hi.ok, shape := hi.shape, len := hi.len,
            links := hi.links, called := hi.called
            ops := fun f hf o ho => hm _ _ _ (hi.ops f hf o ho)
            entries := fun e he => hm _ _ _ (hi.entries e he) }
  | hit hg hk hc =>
    rename_i u v c b o k n
    have hm : ∀ c' b' o', Settled g c' b' o' →
        Settled { g with todo := u ++ v, links := ((c, k), n) :: g.links } c' b' o' :=
      fun c' b' o' => Settled.mono hg (by simp +contextual) (by simp +contextual)
        (fun l hl => List.mem_cons_of_mem _ hl) (.inr ⟨k, n, hk, List.mem_cons_self⟩)
    exact { names := hi.names, keys := hi.keys, ok := hi.ok, shape := hi.shape, len := hi.len
            links := by
              intro l hl
              simp only [List.mem_cons] at hl
              rcases hl with rfl | hl
              · exact cached_mem hc
              · exact hi.links l hl
            called := fun f hf => by
              obtain ⟨l, h1, h2⟩ := hi.called f hf
              exact ⟨l, List.mem_cons_of_mem _ h1, h2⟩
            ops := fun f hf o ho => hm _ _ _ (hi.ops f hf o ho)
            entries := fun e he => hm _ _ _ (hi.entries e he) }
  | create hg hk hc hs =>
    rename_i u v c b o k s
    generalize hn : base k ++ '_' :: decimalName s = n
    have hm : ∀ c' b' o', Settled g c' b' o' →
        Settled { fns := (n, k) :: g.fns, used := (base k, s) :: g.used,
                  todo := u ++ v ++ (fnOps k).map fun o => (n, k.buf, o),
                  links := ((c, k), n) :: g.links } c' b' o' :=
      fun c' b' o' => Settled.mono hg (by simp +contextual) (by simp +contextual)
        (fun l hl => List.mem_cons_of_mem _ hl) (.inr ⟨k, n, hk, List.mem_cons_self⟩)
    have hnew := cached_none hc
    exact {
      names := by
        simp only [List.map_cons, List.nodup_cons]
        refine ⟨fun hmem => ?_, hi.names⟩
        simp only [List.mem_map] at hmem
        obtain ⟨f, hf, hfn⟩ := hmem
        obtain ⟨t, h1, h2⟩ := hi.shape f hf
        rw [h1, ← hn] at hfn
        obtain ⟨h3, rfl⟩ := fnName_inj hfn
        exact hs.1 (h3 ▸ h2)
      keys := by
        simp only [List.map_cons, List.nodup_cons]
        refine ⟨fun hmem => ?_, hi.keys⟩
        simp only [List.mem_map] at hmem
        obtain ⟨f, hf, hfn⟩ := hmem
        exact hnew f hf hfn
      ok := by
        intro f hf
        simp only [List.mem_cons] at hf
        rcases hf with rfl | hf
        · exact (lowerOp_key hk).1
        · exact hi.ok f hf
      shape := by
        intro f hf
        simp only [List.mem_cons] at hf
        rcases hf with rfl | hf
        · exact ⟨s, hn.symm, List.mem_cons_self⟩
        · obtain ⟨t, h1, h2⟩ := hi.shape f hf
          exact ⟨t, h1, List.mem_cons_of_mem _ h2⟩
      len := by simp [hi.len]
      links := by
        intro l hl
        simp only [List.mem_cons] at hl
        rcases hl with rfl | hl
        · exact List.mem_cons_self
        · exact List.mem_cons_of_mem _ (hi.links l hl)
      called := by
        intro f hf
        simp only [List.mem_cons] at hf
        rcases hf with rfl | hf
        · exact ⟨_, List.mem_cons_self, rfl⟩
        · obtain ⟨l, h1, h2⟩ := hi.called f hf
          exact ⟨l, List.mem_cons_of_mem _ h1, h2⟩
      ops := by
        intro f hf o ho
        simp only [List.mem_cons] at hf
        rcases hf with rfl | hf
        · exact .inl (List.mem_append_right _ (List.mem_map.2 ⟨o, ho, rfl⟩))
        · exact hm _ _ _ (hi.ops f hf o ho)
      entries := fun e he => hm _ _ _ (hi.entries e he) }

theorem PassRun.inv {base : FnKey → FnName} {es : Entries} {n : Nat} {g : Gen}
    (h : PassRun base es n g) : PassInv base es g := by
  induction h with
  | start =>
    exact { names := by simp [Gen.start], keys := by simp [Gen.start], ok := by simp [Gen.start]
            shape := by simp [Gen.start], len := by simp [Gen.start], links := by simp [Gen.start]
            called := by simp [Gen.start], ops := by simp [Gen.start]
            entries := fun e he => .inl he }
  | step _ hs ih => exact hs.inv ih

/-! ## Progress -/

theorem suffix_exists (used : List (FnName × Nat)) (base : FnName) (h : used.length < 2 ^ 31) :
    ∃ s, Suffix used base s := by
  by_cases h0 : (base, 0) ∈ used
  · refine Classical.byContradiction fun hno => ?_
    have hall : ∀ s ∈ List.range (used.length + 1), s ∈ used.map (·.2) := by
      intro s hs
      simp only [List.mem_range] at hs
      refine Classical.byContradiction fun hn => hno ⟨s, fun hm => hn ?_, .inr ⟨h0, by omega⟩⟩
      exact List.mem_map.2 ⟨_, hm, rfl⟩
    have := (List.nodup_range (n := used.length + 1)).length_le_of_subset (l₂ := used.map (·.2)) (fun s hs => hall s hs)
    simp at this
    omega
  · exact ⟨0, h0, .inl rfl⟩

theorem PassStep.exists (base : FnKey → FnName) {g : Gen} (hne : g.todo ≠ [])
    (hl : g.used.length < 2 ^ 31) : ∃ g', PassStep base g g' := by
  cases ht : g.todo with
  | nil => exact absurd ht hne
  | cons x r =>
    obtain ⟨c, b, o⟩ := x
    have hg : g.todo = [] ++ (c, b, o) :: r := ht
    cases hk : (lowerOp b o).key with
    | none => exact ⟨_, .inline hg hk⟩
    | some k =>
      cases hc : g.cached k with
      | some n => exact ⟨_, .hit hg hk hc⟩
      | none =>
        obtain ⟨s, hs⟩ := suffix_exists g.used (base k) hl
        exact ⟨_, .create hg hk hc hs⟩

theorem PassRun.fns_le {base : FnKey → FnName} {es : Entries} {n : Nat} {g : Gen}
    (h : PassRun base es n g) : g.fns.length ≤ n := by
  induction h with
  | start => simp [Gen.start]
  | step _ hs ih =>
    cases hs <;> simp <;> omega

/-! ## Running a finished module -/

theorem find_unique {α : Type} {β : Type} [DecidableEq α] {l : List (α × β)}
    (h : (l.map (·.1)).Nodup) {a : α} {b : β} (hm : (a, b) ∈ l) :
    l.find? (fun f => f.1 = a) = some (a, b) := by
  induction l with
  | nil => simp at hm
  | cons x r ih =>
    simp only [List.map_cons, List.nodup_cons] at h
    simp only [List.mem_cons] at hm
    rcases hm with rfl | hm
    · simp
    · have : x.1 ≠ a := by
        rintro rfl
        exact h.1 (List.mem_map.2 ⟨_, hm, rfl⟩)
      simp [this, ih h.2 hm]

theorem link_mem {base : FnKey → FnName} {es : Entries} {g : Gen} (hi : PassInv base es g)
    {c : FnName} {k : FnKey} {n : FnName} (hl : ((c, k), n) ∈ g.links) :
    ∃ m, g.link c k = some m ∧ (m, k) ∈ g.fns := by
  simp only [Gen.link]
  cases h : g.links.find? (fun l => l.1 = (c, k)) with
  | none =>
    simp only [List.find?_eq_none, decide_eq_true_eq] at h
    exact absurd rfl (h _ hl)
  | some l =>
    obtain ⟨⟨c', k'⟩, n'⟩ := l
    have h1 := List.find?_some h
    simp only [decide_eq_true_eq, Prod.mk.injEq] at h1
    obtain ⟨rfl, rfl⟩ := h1
    exact ⟨n', rfl, hi.links _ (List.mem_of_find?_eq_some h)⟩

/-- In a finished module the call of an operation goes to the function of its key. -/
theorem settled_link {base : FnKey → FnName} {es : Entries} {g : Gen} (hi : PassInv base es g)
    (hd : g.todo = []) {c : FnName} {b : BufTy} {o : Op} (hs : Settled g c b o) {k : FnKey}
    (hk : (lowerOp b o).key = some k) : ∃ m, g.link c k = some m ∧ (m, k) ∈ g.fns := by
  simp only [Settled, hd, List.not_mem_nil, false_or] at hs
  rcases hs with hs | ⟨k', n, h1, h2⟩
  · rw [hs] at hk; simp at hk
  · rw [h1] at hk
    simp only [Option.some.injEq] at hk
    subst hk
    exact link_mem hi h2

theorem runLow_congr {E : Env} {f g : FnKey → Exec} {l : Low} (h : ∀ k, l.key = some k → f k = g k) :
    runLow E f l = runLow E g l := by
  cases l with
  | call k b => cases b <;> simp only [runLow, h k rfl]
  | _ => rfl

theorem runLow_link {base : FnKey → FnName} {es : Entries} {g : Gen} {E : Env}
    (hi : PassInv base es g) (hd : g.todo = []) {fuel : Nat}
    (hr : ∀ f ∈ g.fns, f.2.dst.nest ≤ fuel → runFn E g fuel f.1 = keyExec E f.2)
    {c : FnName} {b : BufTy} {o : Op} (hs : Settled g c b o) (hf : o.dst.nest ≤ fuel) :
    runOp E g fuel c b o = opExec E o := by
  simp only [runOp]
  rw [runLow_congr (g := keyExec E)]
  · funext sa da st
    exact lowerOp_exec E b o sa da st
  · intro k hk
    obtain ⟨m, h1, h2⟩ := settled_link hi hd hs hk
    simp only [h1]
    exact hr _ h2 (by rw [lowerOp_dst hk]; exact hf)

theorem keyOK_nest {k : FnKey} (h : KeyOK k) : 0 < k.dst.nest := by
  obtain ⟨d, s, p, hs, b⟩ := k
  simp only [KeyOK] at h
  cases d <;> simp_all [Ty.nest]

theorem runFn_eq {base : FnKey → FnName} {es : Entries} {g : Gen} (E : Env)
    (hi : PassInv base es g) (hd : g.todo = []) : ∀ (fuel : Nat), ∀ f ∈ g.fns, f.2.dst.nest ≤ fuel →
    runFn E g fuel f.1 = keyExec E f.2
  | 0, f, hf, hn => by
    have := keyOK_nest (hi.ok f hf)
    omega
  | fuel + 1, f, hf, hn => by
    obtain ⟨nm, k⟩ := f
    have hfind := find_unique hi.names hf
    simp only [runFn, hfind]
    have hb : ∀ o ∈ fnOps k, runOp E g fuel nm k.buf o = opExec E o := by
      intro o ho
      have hlt := fnOps_nest ho
      simp only at hn
      exact runLow_link hi hd (runFn_eq E hi hd fuel) (hi.ops _ hf o ho) (by omega)
    refine (fnBody_congr (g := opExec E) hb).trans ?_
    funext sa da st
    exact fnBody_exec E k (hi.ok _ hf) sa da st

theorem runOp_eq {base : FnKey → FnName} {es : Entries} {g : Gen} (E : Env)
    (hi : PassInv base es g) (hd : g.todo = []) {c : FnName} {b : BufTy} {o : Op}
    (he : (c, b, o) ∈ es) {fuel : Nat} (hf : o.dst.nest ≤ fuel) :
    runOp E g fuel c b o = opExec E o :=
  runLow_link hi hd (runFn_eq E hi hd fuel) (hi.entries _ he) hf

/-! ## Size functions -/

/-- What an operation does in a size function when everything is inlined. -/
def opSz (ru : Bool) (S : Mem) : Op → SzExec
  | .transcode d s p _ => fun sa c => szX ru S d s p sa c
  | .default _ _ => fun _ c => some c

/-- What the clone of the function of a key does when everything is inlined. -/
def keySz (ru : Bool) (S : Mem) (k : FnKey) : SzExec := fun sa c =>
  match k.src with
  | none => none
  | some s => szX ru S k.dst s k.path sa c

theorem lowerDefault_sz (call : FnKey → SzExec) (b : BufTy) (d : Ty) (hs : Handlers) (sa c : Nat) :
    runLowSz call (lowerDefault b d hs) sa c = some c := by
  cases d <;> rfl

theorem lowerOp_sz (ru : Bool) (S : Mem) (b : BufTy) (o : Op) (sa c : Nat) :
    runLowSz (keySz ru S) (lowerOp b o) sa c = opSz ru S o sa c := by
  cases o with
  | default d hs => exact lowerDefault_sz _ b d hs sa c
  | transcode d s p hs =>
    simp only [lowerOp, opSz]
    cases d with
    | unit => simp [lowerTranscode, runLowSz, szX]
    | variant ts l =>
      cases s with
      | variant sts sl =>
        simp only [lowerTranscode]
        by_cases h : enumFast ts sts l sl
        · rw [if_pos h]; simp [runLowSz, szX, h]
        · rw [if_neg h]; simp [runLowSz, keySz]
      | _ => simp only [lowerTranscode, szX, lowerDefault_sz] <;> simp only [runLowSz]
    | _ =>
      cases s <;> simp only [lowerTranscode, szX, lowerDefault_sz] <;>
        simp only [runLowSz, keySz, szX]

theorem szBodyFields_exec (ru : Bool) (S : Mem) : ∀ (dfs : Fields) (out : Bool) (sfs : Fields)
    (p : Path) (hs : Handlers) (sa c : Nat),
    szBodyFields (opSz ru S) dfs out sfs p hs sa c = szFields ru S dfs out sfs p sa c
  | .nil, _, _, _, _, _, _ => by simp [szBodyFields, szFields]
  | .cons n off t r, out, sfs, p, hs, sa, c => by
    simp only [szBodyFields, szFields]
    congr 1
    funext s
    exact szBodyFields_exec ru S r out sfs p hs sa s

theorem szBodyNamed_exec (ru : Bool) (S : Mem) : ∀ (ts : Terms) (l : VarL) (nm : Comp) (sty : Ty)
    (sa c : Nat), szBodyNamed ru S (opSz ru S) ts l nm sty sa c = szNamed ru S ts l nm sty sa c
  | .nil, _, _, _, _, _ => by simp [szBodyNamed, szNamed]
  | .cons n g as t r, l, nm, sty, sa, c => by
    simp only [szBodyNamed, szNamed]
    rw [szBodyNamed_exec ru S r]
    rfl

theorem szBodyAt_exec (ru : Bool) (S : Mem) : ∀ (ts : Terms) (l : VarL) (i : Nat) (sty : Ty)
    (sa c : Nat), szBodyAt ru S (opSz ru S) ts l i sty sa c = szAt ru S ts l i sty sa c
  | .nil, _, _, _, _, _ => by simp [szBodyAt, szAt]
  | .cons n g as t r, l, 0, sty, sa, c => by
    simp only [szBodyAt, szAt]
    rfl
  | .cons n g as t r, l, i + 1, sty, sa, c => by
    simp only [szBodyAt, szAt]
    exact szBodyAt_exec ru S r l i sty sa c

theorem szBody_exec (ru : Bool) (S : Mem) (k : FnKey) (hk : KeyOK k) (hsrc : k.src ≠ none)
    (sa c : Nat) : szBody ru S (opSz ru S) k sa c = keySz ru S k sa c := by
  obtain ⟨d, s, p, hs, b⟩ := k
  cases s with
  | none => simp at hsrc
  | some s =>
    cases d with
    | int => simp [KeyOK] at hk
    | float => simp [KeyOK] at hk
    | unit => simp [KeyOK] at hk
    | struct dfs dsz dal =>
      cases s with
      | struct sfs sz al =>
        simp only [szBody, srcFields, keySz, szX, szBodyFields_exec]
        congr 1
        funext s
        exact szBodyFields_exec ru S dfs false sfs p hs sa s
      | _ => simp [KeyOK, srcFields] at hk
    | variant dts dl =>
      cases s with
      | variant sts sl =>
        simp only [KeyOK] at hk
        simp only [szBody, srcTerms, keySz, szX, hk, Bool.false_eq_true, if_false, szBodyAt_exec,
          szBodyNamed_exec]
        cases selectTerm S sts sl p sa with
        | none => rfl
        | some o => cases o <;> rfl
      | _ => simp [KeyOK] at hk
    | array de dn desz dal =>
      cases s with
      | array se sn sesz sal =>
        simp only [szBody, srcArray, keySz, szX]
        rfl
      | _ => simp [KeyOK, srcArray] at hk
    | vector de dl =>
      simp only [KeyOK] at hk
      obtain ⟨se, sl, he⟩ := hk
      simp only [Option.some.injEq] at he
      subst he
      simp only [szBody, keySz, szX]
      rfl

theorem szBodyFields_congr {f g : Op → SzExec} : ∀ (dfs : Fields) (out : Bool) (sfs : Fields)
    (p : Path) (hs : Handlers), (∀ o ∈ fieldOps dfs sfs p hs, f o = g o) →
    szBodyFields f dfs out sfs p hs = szBodyFields g dfs out sfs p hs
  | .nil, _, _, _, _, _ => rfl
  | .cons c off t r, out, sfs, p, hs, h => by
    simp only [fieldOps, List.mem_cons, forall_eq_or_imp] at h
    simp only [szBodyFields, szBodyFields_congr r out sfs p hs h.2]
    funext sa st
    congr 1
    split
    · cases hc : sfs.findLast c with
      | none => simp only [hc] at h; rw [h.1]
      | some x => obtain ⟨so, sty⟩ := x; simp only [hc] at h; simp only [h.1]
    · rfl

theorem szBodyNamed_congr {ru : Bool} {S : Mem} {f g : Op → SzExec} : ∀ (ts : Terms) (l : VarL)
    (c : Comp) (sty : Ty), (∀ t ∈ ts.toList, t.name = c → f (.transcode t.ty sty [] []) =
      g (.transcode t.ty sty [] [])) → szBodyNamed ru S f ts l c sty = szBodyNamed ru S g ts l c sty
  | .nil, _, _, _, _ => rfl
  | .cons n a as t r, l, c, sty, h => by
    simp only [Terms.toList, List.mem_cons, forall_eq_or_imp] at h
    simp only [szBodyNamed, szBodyNamed_congr r l c sty h.2]
    funext sa st
    split
    · rename_i hn
      rw [h.1 hn]
    · rfl

theorem szBodyAt_congr {ru : Bool} {S : Mem} {f g : Op → SzExec} : ∀ (ts : Terms) (l : VarL)
    (i : Nat) (sty : Ty), (∀ t, ts.toList[i]? = some t →
      f (.transcode t.ty sty [] []) = g (.transcode t.ty sty [] [])) →
    szBodyAt ru S f ts l i sty = szBodyAt ru S g ts l i sty
  | .nil, _, _, _, _ => rfl
  | .cons n a as t r, l, 0, sty, h => by
    simp only [Terms.toList, List.getElem?_cons_zero, Option.some.injEq, forall_eq'] at h
    simp only [szBodyAt, h]
  | .cons n a as t r, l, i + 1, sty, h => by
    simp only [Terms.toList, List.getElem?_cons_succ] at h
    simp only [szBodyAt]
    exact szBodyAt_congr r l i sty h

theorem termOps_sz_congr {ru : Bool} {S : Mem} {f g : Op → SzExec} {dts : Terms} {dl : VarL}
    {t : Term} (h : ∀ o ∈ termOps dts dl t, f o = g o) :
    (dts.hasName t.name = true →
      szBodyNamed ru S f dts dl t.name t.ty = szBodyNamed ru S g dts dl t.name t.ty) ∧
    (dts.hasName t.name ≠ true →
      szBodyAt ru S f dts dl dl.dflt t.ty = szBodyAt ru S g dts dl dl.dflt t.ty) := by
  refine ⟨fun hn => szBodyNamed_congr _ _ _ _ fun u hu he => ?_,
    fun hn => szBodyAt_congr _ _ _ _ fun u hu => ?_⟩
  · apply h
    simp only [termOps, hn, if_true, List.mem_map, List.mem_filter]
    exact ⟨u, ⟨hu, by simp [he]⟩, rfl⟩
  · apply h
    simp [termOps, hn, dfltOps, hu]

theorem szBody_congr {ru : Bool} {S : Mem} {f g : Op → SzExec} {k : FnKey}
    (h : ∀ o ∈ fnOps k, f o = g o) : szBody ru S f k = szBody ru S g k := by
  obtain ⟨d, s, p, hs, b⟩ := k
  funext sa c
  cases d with
  | int => rfl
  | float => rfl
  | unit => rfl
  | struct dfs dsz dal =>
    simp only [szBody, fnOps] at h ⊢
    cases hs' : srcFields s with
    | none => rfl
    | some sfs =>
      simp only [hs'] at h
      simp only [szBodyFields_congr dfs _ sfs p hs h]
  | variant dts dl =>
    simp only [szBody, fnOps] at h ⊢
    cases hs' : srcTerms s with
    | none => rfl
    | some x =>
      obtain ⟨sts, sl⟩ := x
      simp only [hs'] at h
      simp only
      cases hsel : selectTerm S sts sl p sa with
      | none => rfl
      | some o =>
        cases o with
        | none =>
          simp only
          rw [szBodyAt_congr (f := f) (g := g) dts dl dl.dflt .unit fun t ht =>
            h _ (selected_dflt hsel ht)]
        | some t =>
          simp only
          have hc := termOps_sz_congr (ru := ru) (S := S) (f := f) (g := g) (dts := dts) (dl := dl)
            (t := t) fun o ho => h o (selected_term hsel ho)
          by_cases hn : dts.hasName t.name = true
          · rw [if_pos hn, if_pos hn, hc.1 hn]
          · rw [if_neg hn, if_neg hn, hc.2 hn]
  | array de dn desz dal =>
    simp only [szBody, fnOps] at h ⊢
    cases hs' : srcArray de s with
    | none => rfl
    | some x =>
      simp only [hs'] at h
      simp only [List.mem_cons, List.not_mem_nil, or_false, forall_eq_or_imp, forall_eq] at h
      simp only [h.1]
  | vector de dl =>
    simp only [szBody, fnOps] at h ⊢
    cases s with
    | none => rfl
    | some s =>
      cases s with
      | vector se sl =>
        simp only [List.mem_cons, List.not_mem_nil, or_false, forall_eq] at h
        simp only [h]
      | _ => rfl

theorem convName_inj {a b : FnName} {r s : Bool} (h : convName a r = convName b s) :
    a = b ∧ r = s := by
  have hr := congrArg (fun l => l.getLast?) h
  simp only [convName] at h hr
  cases r <;> cases s
  · exact ⟨List.append_cancel_right h, rfl⟩
  · exfalso
    simp only [Bool.false_eq_true, if_false, if_true] at hr
    rw [List.getLast?_append, List.getLast?_append] at hr
    simp at hr
  · exfalso
    simp only [Bool.false_eq_true, if_false, if_true] at hr
    rw [List.getLast?_append, List.getLast?_append] at hr
    simp at hr
  · exact ⟨List.append_cancel_right h, rfl⟩

theorem clones_names {g : Gen} (h : (g.fns.map (·.1)).Nodup) : (g.clones.map (·.1)).Nodup := by
  simp only [Gen.clones]
  generalize g.fns = l at h
  induction l with
  | nil => simp
  | cons f r ih =>
    simp only [List.map_cons, List.nodup_cons] at h
    have hno : ∀ ru, convName f.1 ru ∉ (r.flatMap fun f =>
        [(convName f.1 true, true, f), (convName f.1 false, false, f)]).map (·.1) := by
      intro ru hm
      simp only [List.mem_map, List.mem_flatMap, List.mem_cons, List.not_mem_nil, or_false] at hm
      obtain ⟨x, ⟨f', hf', hx⟩, he⟩ := hm
      apply h.1
      rcases hx with rfl | rfl
      · exact (convName_inj he).1 ▸ List.mem_map.2 ⟨f', hf', rfl⟩
      · exact (convName_inj he).1 ▸ List.mem_map.2 ⟨f', hf', rfl⟩
    simp only [List.flatMap_cons, List.cons_append, List.nil_append, List.map_cons, List.nodup_cons,
      List.mem_cons, not_or]
    refine ⟨⟨fun he => ?_, hno true⟩, hno false, ih h.2⟩
    have := (convName_inj he).2
    simp at this

theorem clone_mem {g : Gen} {f : FnName × FnKey} (h : f ∈ g.fns) (ru : Bool) :
    (convName f.1 ru, ru, f) ∈ g.clones := by
  simp only [Gen.clones, List.mem_flatMap]
  exact ⟨f, h, by cases ru <;> simp⟩

theorem lowerOp_false_src {b : BufTy} {o : Op} {k : FnKey} (h : lowerOp b o = .call k false) :
    k.src ≠ none := by
  have hd : ∀ d hs, lowerDefault b d hs ≠ .call k false := by
    intro d hs; cases d <;> simp [lowerDefault]
  cases o with
  | default d hs => exact absurd h (hd d hs)
  | transcode d s p hs =>
    simp only [lowerOp] at h
    cases d with
    | unit => simp [lowerTranscode] at h
    | variant ts l =>
      cases s with
      | unit => exact absurd h (hd (.variant ts l) hs)
      | variant sts sl =>
        simp only [lowerTranscode] at h
        split at h
        · simp at h
        · simp only [Low.call.injEq, and_true] at h
          subst h; simp
      | _ => simp [lowerTranscode] at h
    | _ =>
      cases s <;> simp only [lowerTranscode] at h <;>
        first
        | exact absurd h (hd _ _)
        | (simp only [Low.call.injEq, and_true, reduceCtorEq] at h <;> subst h <;> simp)

theorem runLowSz_congr {f g : FnKey → SzExec} {l : Low} (h : ∀ k, l = .call k false → f k = g k) :
    runLowSz f l = runLowSz g l := by
  cases l with
  | call k b =>
    cases b
    · simp only [runLowSz, h k rfl]
    · rfl
  | _ => rfl

theorem runLowSz_link {base : FnKey → FnName} {es : Entries} {g : Gen} {S : Mem} {ru : Bool}
    (hi : PassInv base es g) (hd : g.todo = []) {fuel : Nat}
    (hr : ∀ f ∈ g.fns, f.2.src ≠ none → f.2.dst.nest ≤ fuel →
      runSz S g fuel (convName f.1 ru) = keySz ru S f.2)
    {c : FnName} {b : BufTy} {o : Op} (hs : Settled g c b o) (hf : o.dst.nest ≤ fuel) :
    runLowSz (fun k =>
      match g.link c k with
      | none => fun _ _ => none
      | some m => runSz S g fuel (convName m ru)) (lowerOp b o) = opSz ru S o := by
  rw [runLowSz_congr (g := keySz ru S)]
  · funext sa c
    exact lowerOp_sz ru S b o sa c
  · intro k hk
    have hk' : (lowerOp b o).key = some k := by rw [hk]; rfl
    obtain ⟨m, h1, h2⟩ := settled_link hi hd hs hk'
    simp only [h1]
    exact hr _ h2 (lowerOp_false_src hk) (by rw [lowerOp_dst hk']; exact hf)

theorem runSz_eq {base : FnKey → FnName} {es : Entries} {g : Gen} (S : Mem) (ru : Bool)
    (hi : PassInv base es g) (hd : g.todo = []) : ∀ (fuel : Nat), ∀ f ∈ g.fns, f.2.src ≠ none →
    f.2.dst.nest ≤ fuel → runSz S g fuel (convName f.1 ru) = keySz ru S f.2
  | 0, f, hf, _, hn => by
    have := keyOK_nest (hi.ok f hf)
    omega
  | fuel + 1, f, hf, hsrc, hn => by
    obtain ⟨nm, k⟩ := f
    have hfind := find_unique (clones_names hi.names) (clone_mem hf ru)
    simp only [runSz, hfind]
    rw [szBody_congr (g := opSz ru S)]
    · funext sa c
      exact szBody_exec ru S k (hi.ok _ hf) hsrc sa c
    · intro o ho
      have hlt := fnOps_nest ho
      simp only at hn
      exact runLowSz_link hi hd (runSz_eq S ru hi hd fuel) (hi.ops _ hf o ho) (by omega)

end PJ
