import Verif.Lemmas.MainTri
import Verif.Props.C41_Align
import Verif.Spec.Cursor
/-!
# The buffer cursor of the transcode functions
-/
namespace PJ

/-- Running from `st` needs the buffer bytes up to `q`: on success the cursor is at `q`, and a
bounded run succeeds exactly when they are there. -/
def Cur (st : St) (q : Nat) (r : Res) : Prop :=
  st.ptr ≤ q → q < W64 →
    match r with
    | .ok s => s.ptr = q ∧ s.used = st.used + (q - st.ptr) ∧ (st.rem = none → s.rem = none) ∧
      ∀ C, st.rem = some C → C < 2 ^ 63 → q ≤ st.ptr + 2 ^ 63 →
        q ≤ st.ptr + C ∧ s.rem = some (C - (q - st.ptr))
    | .throw _ => ∃ C, st.rem = some C ∧ (C < 2 ^ 63 → q ≤ st.ptr + 2 ^ 63 → st.ptr + C < q)
    | .ub => True

theorem Cur.ub (st : St) (q : Nat) : Cur st q .ub := fun _ _ => trivial

theorem Cur.same {st s : St} {q : Nat} (hq : q = st.ptr) (hp : s.ptr = st.ptr)
    (hr : s.rem = st.rem) (hu : s.used = st.used) : Cur st q (.ok s) := by
  subst hq
  intro _ _
  refine ⟨hp, by omega, fun h => by rw [hr, h], fun C h _ _ => ⟨by omega, ?_⟩⟩
  rw [hr, h]; congr 1; omega

theorem Cur.bind {st : St} {q1 q2 : Nat} {r : Res} {f : St → Res} (h1 : Cur st q1 r)
    (h2 : ∀ s, r = .ok s → s.ptr = q1 → Cur s q2 (f s)) (hq1 : st.ptr ≤ q1) (hq2 : q1 ≤ q2) :
    Cur st q2 (r.bind f) := by
  intro hp hw
  have h1 := h1 hq1 (by omega)
  cases r with
  | ub => trivial
  | throw s =>
    obtain ⟨C, hC, h⟩ := h1
    exact ⟨C, hC, fun h3 h4 => by have := h h3 (by omega); omega⟩
  | ok s =>
    obtain ⟨hs, hu, hn, hb⟩ := h1
    have h2 := h2 s rfl hs (by omega) hw
    simp only [Res.bind]
    cases hf : f s with
    | ub => trivial
    | ok s' =>
      rw [hf] at h2
      obtain ⟨h2a, h2u, h2b, h2c⟩ := h2
      refine ⟨h2a, by omega, fun h => h2b (hn h), fun C hC h3 h4 => ?_⟩
      obtain ⟨hb1, hb2⟩ := hb C hC h3 (by omega)
      obtain ⟨hc1, hc2⟩ := h2c _ hb2 (by omega) (by omega)
      refine ⟨by omega, ?_⟩
      rw [hc2]; congr 1; omega
    | throw s' =>
      rw [hf] at h2
      obtain ⟨C', hC', h⟩ := h2
      cases hr : st.rem with
      | none => rw [hn hr] at hC'; cases hC'
      | some C =>
        refine ⟨C, rfl, fun h3 h4 => ?_⟩
        by_cases hle : q1 ≤ st.ptr + C
        · obtain ⟨hb1, hb2⟩ := hb C hr h3 (by omega)
          rw [hb2] at hC'
          cases hC'
          have := h (by omega) (by omega)
          omega
        · omega

theorem Cur.alloc (st : St) (n : Nat) : Cur st (st.ptr + n) (alloc st n) := by
  intro _ hw
  unfold PJ.alloc
  cases hr : st.rem with
  | none =>
    simp only
    exact ⟨Nat.mod_eq_of_lt hw, by simp, fun _ => trivial, fun C h => by cases h⟩
  | some r =>
    simp only
    have hs : r < 2 ^ 63 → st.ptr + n ≤ st.ptr + 2 ^ 63 →
        (toSigned 8 (sub64 r n) < 0 ↔ r < n) ∧ (n ≤ r → sub64 r n = r - n) := by
      intro h1 h2
      unfold sub64 W64 toSigned
      simp only [Nat.reducePow] at *
      omega
    by_cases h : toSigned 8 (sub64 r n) < 0
    · simp only [if_pos h]
      refine ⟨r, rfl, fun h1 h2 => ?_⟩
      have := (hs h1 h2).1.1 h
      omega
    · simp only [if_neg h]
      refine ⟨Nat.mod_eq_of_lt hw, by simp, (fun h => by cases h), fun C hC h1 h2 => ?_⟩
      cases hC
      obtain ⟨h3, h4⟩ := hs h1 h2
      rw [h3] at h
      refine ⟨by omega, ?_⟩
      rw [h4 (by omega)]
      congr 1
      omega

theorem alignUp_le (p al : Nat) (h : 0 < al) : p ≤ alignUp p al := by
  unfold alignUp
  have h1 := Nat.div_add_mod (p + al - 1) al
  have h2 := Nat.mod_lt (p + al - 1) h
  rw [Nat.mul_comm] at h1
  omega

theorem Cur.alignTo (st : St) (al : Nat) : Cur st (alignUp st.ptr al) (alignTo st al) := by
  unfold PJ.alignTo
  split
  · rename_i h; subst h
    exact Cur.same (by unfold alignUp; omega) rfl rfl rfl
  · split
    · rename_i h1 h
      intro hp hw
      have h2 : st.ptr < 2 ^ 64 := by unfold W64 at hw; omega
      obtain ⟨ha, hb, _⟩ := C41_align st.ptr al h2 (by omega)
      have : alignUp st.ptr al = st.ptr + alignDiff st.ptr al := by
        unfold alignUp
        rcases h with rfl | rfl | rfl <;> omega
      rw [this] at hp hw ⊢
      exact Cur.alloc st _ hp hw
    · exact Cur.ub _ _

theorem Cur.loop {body : Nat → St → Res} (c : Nat → Nat) (hc : ∀ j, c j ≤ c (j + 1)) :
    ∀ (n i : Nat) (st : St), st.ptr = c i →
    (∀ j s, i ≤ j → j < i + n → s.ptr = c j → Cur s (c (j + 1)) (body j s)) →
    Cur st (c (i + n)) (loop body n i st)
  | 0, i, st, hp, _ => Cur.same (by simpa using hp.symm) rfl rfl rfl
  | n + 1, i, st, hp, h => by
    simp only [PJ.loop]
    have hmono : ∀ n i, c i ≤ c (i + n) := by
      intro n
      induction n with
      | zero => intro i; exact Nat.le_refl _
      | succ n ih => intro i; exact Nat.le_trans (ih i) (hc (i + n))
    have hm := hmono n (i + 1)
    rw [show i + 1 + n = i + (n + 1) by omega] at hm
    refine Cur.bind (h i st (by omega) (by omega) hp) (fun s _ hs => ?_) (by rw [hp]; exact hc i) hm
    rw [show i + (n + 1) = i + 1 + n by omega]
    exact Cur.loop c hc n (i + 1) s hs fun j s h1 h2 h3 => h j s (by omega) (by omega) h3

theorem Cur.cb {st : St} {q : Nat} {r : Res} (h : Cur st q r) (hm : List (Comp × Nat)) (n : Comp) :
    Cur st q (r.bind (setCb hm n)) := by
  cases r with
  | ok s =>
    simp only [Res.bind, setCb]
    split
    · exact h
    · exact h
  | throw s => exact h
  | ub => exact h

theorem Cur.keep {st : St} {H : Nat → Prop} {r : Res} (h : DRes H st r) :
    Cur st st.ptr (keepBuf st r) := by
  rw [keepBuf_eq h]
  cases r with
  | ok s => exact Cur.same rfl h.1 h.2.1 h.2.2.1
  | throw s => exact absurd h id
  | ub => exact Cur.ub _ _

mutual
theorem fin_ge : ∀ (t : Ty) (v : Val) (p : Nat), WF t → p ≤ fin t v p
  | .unit, _, _, _ => by simp [fin]
  | .int _ _ _, _, _, _ => by simp [fin]
  | .float _ _, _, _, _ => by simp [fin]
  | .struct fs _ _, v, p, h => by
    simp only [WF] at h
    simp only [fin]
    split
    · exact Nat.le_trans (finFields_ge fs true _ p h.1) (finFields_ge fs false _ _ h.1)
    · exact Nat.le_refl _
  | .variant ts l, v, p, h => by
    simp only [WF] at h
    simp only [fin]
    split
    · split
      · exact finNamed_ge ts l _ _ p h.1
      · exact finAt_ge ts l _ _ p h.1
    · exact Nat.le_refl _
  | .array e n _ _, v, p, h => by
    simp only [WF] at h
    simp only [fin]
    split
    · rename_i xs
      generalize xs.take n = ys
      induction ys generalizing p with
      | nil => exact Nat.le_refl _
      | cons y ys ih => exact Nat.le_trans (fin_ge e y p h.1) (ih _)
    · exact Nat.le_refl _
  | .vector e l, v, p, h => by
    simp only [WF] at h
    simp only [fin]
    split
    · rename_i xs
      have h0 : p ≤ (if l.isInl (cutTo l.maxLen xs).length then p
         else alignUp p e.align + l.elemW * ((cutTo l.maxLen xs).length - l.ppl)) := by
        split
        · exact Nat.le_refl _
        · have := alignUp_le p e.align (by have := h.2.align; omega)
          omega
      refine Nat.le_trans h0 ?_
      generalize (if l.isInl (cutTo l.maxLen xs).length then p
         else alignUp p e.align + l.elemW * ((cutTo l.maxLen xs).length - l.ppl)) = p0
      generalize cutTo l.maxLen xs = ys
      induction ys generalizing p0 with
      | nil => exact Nat.le_refl _
      | cons y ys ih => exact Nat.le_trans (fin_ge e y p0 h.1) (ih _)
    · exact Nat.le_refl _
theorem finFields_ge : ∀ (fs : Fields) (out : Bool) (vs : List (Comp × Val)) (p : Nat), WFFields fs →
    p ≤ finFields fs out vs p
  | .nil, _, _, _, _ => by simp [finFields]
  | .cons c _ t r, out, vs, p, h => by
    simp only [WFFields] at h
    simp only [finFields]
    refine Nat.le_trans ?_ (finFields_ge r out vs _ h.2)
    split
    · split
      · exact fin_ge t _ p h.1
      · exact Nat.le_refl _
    · exact Nat.le_refl _
theorem finNamed_ge : ∀ (ts : Terms) (l : VarL) (c : Comp) (v : Val) (p : Nat), WFTerms ts →
    p ≤ finNamed ts l c v p
  | .nil, _, _, _, _, _ => by simp [finNamed]
  | .cons n _ as t r, l, c, v, p, h => by
    simp only [WFTerms] at h
    simp only [finNamed]
    split
    · split
      · refine Nat.le_trans ?_ (fin_ge t v _ h.1)
        split <;> omega
      · exact finNamed_ge r l c v p h.2
      · exact Nat.le_refl _
    · exact finNamed_ge r l c v p h.2
theorem finAt_ge : ∀ (ts : Terms) (l : VarL) (i : Nat) (v : Val) (p : Nat), WFTerms ts →
    p ≤ finAt ts l i v p
  | .nil, _, _, _, _, _ => by simp [finAt]
  | .cons n _ as t r, l, 0, v, p, h => by
    simp only [WFTerms] at h
    simp only [finAt]
    split
    · refine Nat.le_trans ?_ (fin_ge t v _ h.1)
      split <;> omega
    · exact Nat.le_refl _
  | .cons n _ as t r, l, i + 1, v, p, h => by
    simp only [WFTerms] at h
    simp only [finAt]
    exact finAt_ge r l i v p h.2
end

mutual
theorem fin_zero : ∀ (t : Ty) (v : Val) (p : Nat), WF t → t.size = 0 → fin t v p = p
  | .unit, _, _, _, _ => by simp [fin]
  | .int _ _ _, _, _, h, hz => by simp [fin]
  | .float _ _, _, _, _, _ => by simp [fin]
  | .struct fs sz al, v, p, h, hz => by
    simp only [WF] at h
    simp only [Ty.size] at hz
    have hz' : ∀ x ∈ fs.toList, x.2.2.size = 0 := fun x hx => by have := h.2.inside x hx; omega
    simp only [fin]
    split
    · rw [finFields_zero fs true _ _ h.1 hz', finFields_zero fs false _ _ h.1 hz']
    · rfl
  | .variant ts l, v, p, h, hz => by
    simp only [WF] at h
    simp only [Ty.size] at hz
    have := h.2.tagIn; have := h.2.tagW; omega
  | .vector e l, v, p, h, hz => by
    simp only [WF] at h
    simp only [Ty.size] at hz
    have := h.2.lenIn; have := h.2.lenSize; omega
  | .array e n esz al, v, p, h, hz => by
    simp only [WF] at h
    simp only [Ty.size] at hz
    simp only [fin]
    split
    · rename_i xs
      rcases Nat.mul_eq_zero.1 hz with h0 | h0
      · subst h0; simp
      · generalize xs.take n = ys
        induction ys with
        | nil => rfl
        | cons y ys ih =>
          simp only [List.foldl_cons]
          rw [fin_zero e y p h.1 (by omega)]
          exact ih
    · rfl
theorem finFields_zero : ∀ (fs : Fields) (out : Bool) (vs : List (Comp × Val)) (p : Nat), WFFields fs →
    (∀ x ∈ fs.toList, x.2.2.size = 0) → finFields fs out vs p = p
  | .nil, _, _, _, _, _ => by simp [finFields]
  | .cons c _ t r, out, vs, p, h, hz => by
    simp only [WFFields] at h
    simp only [Fields.toList, List.mem_cons, forall_eq_or_imp] at hz
    simp only [finFields]
    rw [finFields_zero r out vs _ h.2 hz.2]
    split
    · split
      · exact fin_zero t _ p h.1 hz.1
      · rfl
    · rfl
end

theorem finNamed_enum : ∀ (ts : Terms) (l : VarL) (c : Comp) (v : Val) (p : Nat), WFTerms ts →
    (∀ t ∈ ts.toList, t.ty.size = 0) → finNamed ts l c v p = p
  | .nil, _, _, _, _, _, _ => by simp [finNamed]
  | .cons n _ as t r, l, c, v, p, h, hz => by
    simp only [WFTerms] at h
    simp only [Terms.toList, List.mem_cons, forall_eq_or_imp] at hz
    have ih := finNamed_enum r l c v p h.2 hz.2
    simp only [finNamed, ih]
    split
    · split
      · rw [fin_zero t v _ h.1 hz.1]; split <;> omega
      · rfl
      · rfl
    · rfl

theorem finAt_enum : ∀ (ts : Terms) (l : VarL) (i : Nat) (v : Val) (p : Nat), WFTerms ts →
    (∀ t ∈ ts.toList, t.ty.size = 0) → finAt ts l i v p = p
  | .nil, _, _, _, _, _, _ => by simp [finAt]
  | .cons n _ as t r, l, 0, v, p, h, hz => by
    simp only [WFTerms] at h
    simp only [Terms.toList, List.mem_cons, forall_eq_or_imp] at hz
    simp only [finAt]
    split
    · rw [fin_zero t v _ h.1 hz.1]; split <;> omega
    · rfl
  | .cons n _ as t r, l, i + 1, v, p, h, hz => by
    simp only [WFTerms] at h
    simp only [Terms.toList, List.mem_cons, forall_eq_or_imp] at hz
    simp only [finAt]
    exact finAt_enum r l i v p h.2 hz.2

/-- The cursor before element `j`. -/
def curAt (e : Ty) (ys : List Val) (p j : Nat) : Nat := (ys.take j).foldl (fun p x => fin e x p) p

theorem curAt_succ (e : Ty) (ys : List Val) (p j : Nat) {y : Val} (h : ys[j]? = some y) :
    curAt e ys p (j + 1) = fin e y (curAt e ys p j) := by
  unfold curAt
  have hj := (List.getElem?_eq_some_iff.1 h)
  obtain ⟨h1, rfl⟩ := hj
  rw [List.take_succ_eq_append_getElem h1, List.foldl_append]
  rfl

theorem curAt_mono (e : Ty) (he : WF e) (ys : List Val) (p j : Nat) :
    curAt e ys p j ≤ curAt e ys p (j + 1) := by
  by_cases h : j < ys.length
  · rw [curAt_succ e ys p j (List.getElem?_eq_getElem h)]; exact fin_ge e _ _ he
  · unfold curAt
    rw [List.take_of_length_le (by omega), List.take_of_length_le (by omega)]
    exact Nat.le_refl _

theorem curAt_le (e : Ty) (he : WF e) (ys : List Val) (p : Nat) : ∀ n i,
    curAt e ys p i ≤ curAt e ys p (i + n)
  | 0, _ => Nat.le_refl _
  | n + 1, i => Nat.le_trans (curAt_le e he ys p n i) (curAt_mono e he ys p (i + n))

theorem curAt_all (e : Ty) (ys : List Val) (p : Nat) :
    curAt e ys p ys.length = ys.foldl (fun p x => fin e x p) p := by
  unfold curAt; rw [List.take_length]

theorem seg_cur {f : Nat → Nat → St → Res} {e : Ty} (he : WF e) {sA : Nat → Nat} {ys : List Val}
    {p : Nat} (hf : ∀ i y, ys[i]? = some y → ∀ d s, Cur s (fin e y s.ptr) (f (sA i) d s))
    (b n ss sw si ds dw di : Nat) (st : St) (hb : b + n ≤ ys.length) (hn : n < 2 ^ 63)
    (hp : st.ptr = curAt e ys p b)
    (hs : ∀ j, j < n → elemAt ss sw (si + j) = sA (b + j)) :
    Cur st (curAt e ys p (b + n)) (copyLoop f ss sw si ds dw di n st) := by
  unfold copyLoop
  rw [loopCount_eq hn]
  have := Cur.loop (body := fun i => f (elemAt ss sw (si + i)) (elemAt ds dw (di + i)))
    (fun j => curAt e ys p (b + j)) (fun j => curAt_mono e he ys p (b + j)) n 0 st (by simpa using hp)
    fun j s _ hj hsp => by
      rw [hs j (by omega)]
      have hy : ys[b + j]? = some ys[b + j] := List.getElem?_eq_getElem (by omega)
      rw [show b + (j + 1) = b + j + 1 by omega, curAt_succ e ys p (b + j) hy, ← hsp]
      exact hf (b + j) _ hy _ s
  simpa using this

theorem chain_cur {e : Ty} (he : WF e) {ys : List Val} {p b c d : Nat} {st : St} {r : Res}
    {f : St → Res} (hp : st.ptr = curAt e ys p b) (h1 : Cur st (curAt e ys p c) r)
    (h2 : ∀ s, s.ptr = curAt e ys p c → Cur s (curAt e ys p d) (f s)) (hbc : b ≤ c) (hcd : c ≤ d) :
    Cur st (curAt e ys p d) (r.bind f) := by
  refine Cur.bind h1 (fun s _ hs => h2 s hs) ?_ ?_
  · rw [hp, show c = b + (c - b) by omega]; exact curAt_le e he ys p _ _
  · rw [show d = c + (d - c) by omega]; exact curAt_le e he ys p _ _

theorem xVector_cur (E : Env) (f : Nat → Nat → St → Res) (e : Ty) (sesz sal : Nat) (dl sl : VecL)
    (sa da : Nat) (st : St) (n : Nat) (ys : List Val) (he : WF e)
    (hd : VecLayout dl e.size e.align) (hs : VecLayout sl sesz sal)
    (hc : VecCompat dl sl) (hn : lengthOp E.S sl sa = some n) (hn63 : n < 2 ^ 63)
    (hlen : ys.length = copyLength dl n)
    (hf : ∀ i y, ys[i]? = some y → ∀ d s, Cur s (fin e y s.ptr) (f (vecElemAddr E.S sl sa n i) d s)) :
    Cur st (ys.foldl (fun p x => fin e x p)
        (if dl.isInl ys.length then st.ptr
         else alignUp st.ptr e.align + dl.elemW * (ys.length - dl.ppl)))
      (xVector E f e.size e.align dl sl sa da st) := by
  unfold xVector
  rw [hn]
  simp only
  have hnW : n < W64 := Nat.lt_of_lt_of_le hn63 (by decide)
  have hle := copyLength_le_self dl n
  have hcW : copyLength dl n < W64 := by omega
  have hls := hd.lenSize
  have hmax : ∀ m, dl.maxLen = some m → copyLength dl n ≤ m := fun m hm => copyLength_le hm
  have hsl : storeLength dl da (copyLength dl n) st
      = .ok (st.store (da + dl.lenOff) dl.lenSize (copyLength dl n)) := by
    unfold storeLength; rw [if_neg (by omega)]
  rw [hsl]
  simp only [Res.bind]
  have hsp := hs.ppl
  have hdp := hd.ppl
  have hdm := hd.min
  have hsm := hs.min
  generalize hst0 : st.store (da + dl.lenOff) dl.lenSize (copyLength dl n) = st0
  have hptr0 : st0.ptr = st.ptr := by subst hst0; rfl
  have hrem0 : st0.rem = st.rem := by subst hst0; rfl
  have hused0 : st0.used = st.used := by subst hst0; rfl
  -- back to the state before the length was stored
  suffices hmain : Cur st0 (ys.foldl (fun p x => fin e x p)
        (if dl.isInl ys.length then st0.ptr
         else alignUp st0.ptr e.align + dl.elemW * (ys.length - dl.ppl)))
      (if sl.isInl n = true then xInlineVec E f e.size e.align dl sl sa da (copyLength dl n) st0
       else xOutlineVec E f e.size e.align dl sl sa da (copyLength dl n) st0) by
    unfold Cur at hmain ⊢
    rw [hptr0, hrem0, hused0] at hmain
    exact hmain
  rw [hlen, ← curAt_all, hlen]
  -- inline destination
  have hinl : ∀ (k : St → Res), dl.isInl (copyLength dl n) = true →
      (∀ s, s.ptr = curAt e ys st0.ptr 0 → Cur s (curAt e ys st0.ptr (copyLength dl n)) (k s)) →
      Cur st0 (curAt e ys (if dl.isInl (copyLength dl n) then st0.ptr
         else alignUp st0.ptr e.align + dl.elemW * (copyLength dl n - dl.ppl)) (copyLength dl n))
        (k (st0.poison E.J (da + dl.inlOff) (e.size * dl.minLen))) := by
    intro k hdi hk
    rw [if_pos hdi]
    exact hk (st0.poison E.J (da + dl.inlOff) (e.size * dl.minLen)) rfl
  -- outlined destination
  have hout : ∀ (K : Nat → St → Res), dl.isInl (copyLength dl n) = false →
      (∀ p s, s.ptr = curAt e ys (alignUp st0.ptr e.align + dl.elemW * (copyLength dl n - dl.ppl)) 0 →
        Cur s (curAt e ys (alignUp st0.ptr e.align + dl.elemW * (copyLength dl n - dl.ppl))
          (copyLength dl n)) (K p s)) →
      Cur st0 (curAt e ys (if dl.isInl (copyLength dl n) then st0.ptr
         else alignUp st0.ptr e.align + dl.elemW * (copyLength dl n - dl.ppl)) (copyLength dl n))
        ((alignTo st0 e.align).bind fun sta => (storeRef dl da sta).bind fun st1 =>
          (alloc st1 (dl.elemW * sub64 (copyLength dl n) dl.ppl)).bind fun st2 => K sta.ptr st2) := by
    intro K hdo hK
    rw [if_neg (by simp [hdo])]
    have hdo' := isInl_false.1 hdo
    have hal := alignUp_le st0.ptr e.align (by have := hd.align; omega)
    have hcl := curAt_le e he ys (alignUp st0.ptr e.align + dl.elemW * (copyLength dl n - dl.ppl))
      (copyLength dl n) 0
    rw [Nat.zero_add] at hcl
    have h0 : curAt e ys (alignUp st0.ptr e.align + dl.elemW * (copyLength dl n - dl.ppl)) 0
      = alignUp st0.ptr e.align + dl.elemW * (copyLength dl n - dl.ppl) := rfl
    rw [h0] at hcl
    refine Cur.bind (Cur.alignTo st0 e.align) (fun sta _ hsta => ?_) hal (by omega)
    refine Cur.bind (q1 := sta.ptr) ?_ (fun st1 _ hst1 => ?_) (Nat.le_refl _) (by omega)
    · unfold storeRef
      split
      · split
        · exact Cur.same rfl rfl rfl rfl
        · exact Cur.ub _ _
      · split
        · exact Cur.ub _ _
        · exact Cur.same rfl rfl rfl rfl
    · have hca := Cur.alloc st1 (dl.elemW * (copyLength dl n - dl.ppl))
      rw [sub64_eq (by omega) hcW]
      refine Cur.bind hca (fun st2 _ hst2 => hK sta.ptr st2 ?_) (by omega) (by omega)
      rw [hst2, h0, hst1, hsta]
  cases hsi : sl.isInl n with
  | true =>
    simp only [if_true]
    have hsi' := isInl_true.1 hsi
    have hA : ∀ i, vecElemAddr E.S sl sa n i = elemAt (sa + sl.inlOff) sl.elemW i := by
      intro i; unfold vecElemAddr; rw [if_pos hsi]
    cases hdi : dl.isInl (copyLength dl n) with
    | true =>
      have := hinl (fun s => copyLoop f (sa + sl.inlOff) sl.elemW 0 (da + dl.inlOff) dl.elemW 0
        (copyLength dl n) s) hdi (fun s hsp => by
          have := seg_cur he hf 0 (copyLength dl n)
            (sa + sl.inlOff) sl.elemW 0 (da + dl.inlOff) dl.elemW 0 s (by omega) (by omega) hsp
            (fun j _ => (hA _).symm)
          simpa only [Nat.zero_add] using this)
      rw [hdi] at this
      refine cast ?_ this
      congr 1
      unfold xInlineVec
      rw [if_neg (by omega), if_pos hdi]
    | false =>
      have hdo' := isInl_false.1 hdi
      have hcp : dl.ppl ≤ copyLength dl n := by omega
      have := hout (fun p s => (copyLoop f (sa + sl.inlOff) sl.elemW 0 (da + dl.parOff) dl.elemW 0
        dl.ppl s).bind fun st3 => copyLoop f (sa + sl.inlOff) sl.elemW dl.ppl p dl.elemW 0
          (sub64 (copyLength dl n) dl.ppl) st3) hdi (fun p s hsp => by
          refine chain_cur he (c := dl.ppl) hsp ?_ (fun s hsp => ?_) (by omega) hcp
          · have := seg_cur he hf 0 dl.ppl
              (sa + sl.inlOff) sl.elemW 0 (da + dl.parOff) dl.elemW 0 s (by omega) (by omega) hsp
              (fun j _ => (hA _).symm)
            simpa only [Nat.zero_add] using this
          · have := seg_cur he hf dl.ppl (copyLength dl n - dl.ppl)
              (sa + sl.inlOff) sl.elemW dl.ppl p dl.elemW 0 s (by omega) (by omega) hsp
              (fun j _ => (hA _).symm)
            rw [show dl.ppl + (copyLength dl n - dl.ppl) = copyLength dl n by omega] at this
            rw [sub64_eq hcp hcW]; exact this)
      rw [hdi] at this
      refine cast ?_ this
      congr 1
      unfold xInlineVec
      rw [if_neg (by omega), if_neg (by simp [hdi])]
  | false =>
    simp only [Bool.false_eq_true, if_false]
    have hso' := isInl_false.1 hsi
    have hnp : sl.ppl ≤ n := by omega
    have hA1 : ∀ i, i < sl.ppl → elemAt (sa + sl.parOff) sl.elemW i = vecElemAddr E.S sl sa n i := by
      intro i hi; unfold vecElemAddr; rw [hsi, if_pos hi]; simp
    have hA2 : ∀ i, elemAt (refStart E.S sl sa) sl.elemW i = vecElemAddr E.S sl sa n (sl.ppl + i) := by
      intro i; unfold vecElemAddr
      simp only [hsi, Bool.false_eq_true, if_false]
      rw [if_neg (by omega)]; congr 1; omega
    have hassume : ¬ (sl.minLen > 0 ∧ ¬ min (sl.minLen + 1) dl.maxBound ≤ copyLength dl n) := by
      rintro ⟨h1, h2⟩
      exact h2 (copyLength_ge (by omega) (by omega))
    cases hdi : dl.isInl (copyLength dl n) with
    | true =>
      have hdi' := isInl_true.1 hdi
      have hmin : min sl.ppl dl.maxBound ≤ copyLength dl n := copyLength_ge (by omega) (by omega)
      have hcopy : sl.ppl ≤ dl.maxBound ∨ copyLength dl n ≤ min sl.ppl dl.maxBound := by
        by_cases h : sl.ppl ≤ dl.maxBound
        · exact Or.inl h
        · right
          unfold VecL.maxBound at *
          cases hm : dl.maxLen with
          | none => rw [hm] at h; simp only at h; omega
          | some m => rw [hm] at h; simp only at h ⊢; have := hmax m hm; omega
      have := hinl (fun s => (copyLoop f (sa + sl.parOff) sl.elemW 0 (da + dl.inlOff) dl.elemW 0
          (min sl.ppl dl.maxBound) s).bind fun st1 =>
          copyLoop f (refStart E.S sl sa) sl.elemW 0 (da + dl.inlOff) dl.elemW (min sl.ppl dl.maxBound)
            (sub64 (copyLength dl n) (min sl.ppl dl.maxBound)) st1) hdi (fun s hsp => by
          refine chain_cur he (c := min sl.ppl dl.maxBound) hsp ?_ (fun s hsp => ?_) (by omega) hmin
          · have := seg_cur he hf 0 (min sl.ppl dl.maxBound)
              (sa + sl.parOff) sl.elemW 0 (da + dl.inlOff) dl.elemW 0 s (by omega) (by omega) hsp
              (fun j hj => hA1 _ (by omega))
            simpa only [Nat.zero_add] using this
          · have := seg_cur he hf (min sl.ppl dl.maxBound)
              (copyLength dl n - min sl.ppl dl.maxBound) (refStart E.S sl sa) sl.elemW 0
              (da + dl.inlOff) dl.elemW (min sl.ppl dl.maxBound) s (by omega) (by omega) hsp
              (fun j hj => by rw [hA2]; congr 1; omega)
            rw [show min sl.ppl dl.maxBound + (copyLength dl n - min sl.ppl dl.maxBound)
              = copyLength dl n by omega] at this
            rw [sub64_eq hmin hcW]; exact this)
      rw [hdi] at this
      refine cast ?_ this
      congr 1
      unfold xOutlineVec
      rw [if_neg hassume, if_pos hdi]
    | false =>
      have hdo' := isInl_false.1 hdi
      have hcp : dl.ppl ≤ copyLength dl n := by omega
      by_cases hpp : sl.ppl ≤ dl.ppl
      · have := hout (fun p s =>
            (copyLoop f (sa + sl.parOff) sl.elemW 0 (da + dl.parOff) dl.elemW 0 sl.ppl s).bind
              fun st3 => (copyLoop f (refStart E.S sl sa) sl.elemW 0 (da + dl.parOff) dl.elemW sl.ppl
                (dl.ppl - sl.ppl) st3).bind fun st4 =>
              copyLoop f (refStart E.S sl sa) sl.elemW (dl.ppl - sl.ppl) p dl.elemW 0
                (sub64 (copyLength dl n) dl.ppl) st4) hdi (fun p s hsp => by
          refine chain_cur he (c := sl.ppl) hsp ?_ (fun s hsp => ?_) (by omega) (by omega)
          · have := seg_cur he hf 0 sl.ppl
              (sa + sl.parOff) sl.elemW 0 (da + dl.parOff) dl.elemW 0 s (by omega) (by omega) hsp
              (fun j hj => hA1 _ (by omega))
            simpa only [Nat.zero_add] using this
          · refine chain_cur he (c := dl.ppl) hsp ?_ (fun s hsp => ?_) (by omega) hcp
            · have := seg_cur he hf sl.ppl (dl.ppl - sl.ppl)
                (refStart E.S sl sa) sl.elemW 0 (da + dl.parOff) dl.elemW sl.ppl s (by omega) (by omega)
                hsp (fun j hj => by rw [hA2]; congr 1; omega)
              rw [show sl.ppl + (dl.ppl - sl.ppl) = dl.ppl by omega] at this
              exact this
            · have := seg_cur he hf dl.ppl (copyLength dl n - dl.ppl)
                (refStart E.S sl sa) sl.elemW (dl.ppl - sl.ppl) p dl.elemW 0 s (by omega) (by omega)
                hsp (fun j hj => by rw [hA2]; congr 1; omega)
              rw [show dl.ppl + (copyLength dl n - dl.ppl) = copyLength dl n by omega] at this
              rw [sub64_eq hcp hcW]; exact this)
        rw [hdi] at this
        refine cast ?_ this
        congr 1
        unfold xOutlineVec
        rw [if_neg hassume, if_neg (by simp [hdi])]
        simp only [if_pos hpp]
      · have hmb : sl.ppl ≤ dl.maxBound := by
          rcases hc with h | ⟨h0, h⟩
          · exact h
          · unfold VecL.maxBound at h ⊢
            cases hm : dl.maxLen with
            | none => simp only; omega
            | some m =>
              rw [hm] at h; simp only at h ⊢
              have := hmax m hm; omega
        have hsc : sl.ppl ≤ copyLength dl n := copyLength_ge hnp hmb
        have := hout (fun p s =>
            (copyLoop f (sa + sl.parOff) sl.elemW 0 (da + dl.parOff) dl.elemW 0 dl.ppl s).bind
              fun st3 => (copyLoop f (sa + sl.parOff) sl.elemW dl.ppl p dl.elemW 0
                (sl.ppl - dl.ppl) st3).bind fun st4 =>
              copyLoop f (refStart E.S sl sa) sl.elemW 0 p dl.elemW (sl.ppl - dl.ppl)
                (sub64 (copyLength dl n) sl.ppl) st4) hdi (fun p s hsp => by
          refine chain_cur he (c := dl.ppl) hsp ?_ (fun s hsp => ?_) (by omega) (by omega)
          · have := seg_cur he hf 0 dl.ppl
              (sa + sl.parOff) sl.elemW 0 (da + dl.parOff) dl.elemW 0 s (by omega) (by omega) hsp
              (fun j hj => hA1 _ (by omega))
            simpa only [Nat.zero_add] using this
          · refine chain_cur he (c := sl.ppl) hsp ?_ (fun s hsp => ?_) (by omega) hsc
            · have := seg_cur he hf dl.ppl (sl.ppl - dl.ppl)
                (sa + sl.parOff) sl.elemW dl.ppl p dl.elemW 0 s (by omega) (by omega) hsp
                (fun j hj => hA1 _ (by omega))
              rw [show dl.ppl + (sl.ppl - dl.ppl) = sl.ppl by omega] at this
              exact this
            · have := seg_cur he hf sl.ppl (copyLength dl n - sl.ppl)
                (refStart E.S sl sa) sl.elemW 0 p dl.elemW (sl.ppl - dl.ppl) s (by omega) (by omega)
                hsp (fun j hj => by rw [hA2]; congr 1; omega)
              rw [show sl.ppl + (copyLength dl n - sl.ppl) = copyLength dl n by omega] at this
              rw [sub64_eq hsc hcW]; exact this)
        rw [hdi] at this
        refine cast ?_ this
        congr 1
        unfold xOutlineVec
        rw [if_neg hassume, if_neg (by simp [hdi])]
        simp only [if_neg hpp]

end PJ
