import Verif.Lemmas.Frame
import Verif.Lemmas.Sort
/-!
# Frame lemma for `xcode`
-/
namespace PJ

theorem sub64_eq {a b : Nat} (h : b ≤ a) (ha : a < W64) : sub64 a b = a - b := by
  unfold sub64 W64 at *; omega

theorem sub64_lt (a b : Nat) : sub64 a b < W64 := Nat.mod_lt _ (by decide)

theorem loopCount_le (n : Nat) : loopCount n ≤ n := by unfold loopCount; split <;> omega

theorem loopCount_eq {n : Nat} (h : n < 2 ^ 63) : loopCount n = n := by
  unfold loopCount; rw [if_pos h]

theorem lengthOp_lt {S : Mem} {l : VecL} {a n esz eal : Nat} (hl : VecLayout l esz eal)
    (h : lengthOp S l a = some n) : n < W64 := by
  have h8 : readN S (a + l.lenOff) l.lenSize < W64 :=
    Nat.lt_of_lt_of_le (readN_lt _ _ _)
      (show 256 ^ l.lenSize ≤ 256 ^ 8 from Nat.pow_le_pow_right (by decide) hl.lenSize.2)
  unfold lengthOp at h
  split at h
  · split at h
    · cases h
    · cases h; exact h8
  · split at h
    · cases h; decide
    · split at h
      · cases h
      · split at h
        · cases h; exact h8
        · cases h

theorem copyLength_le {dl : VecL} {n m : Nat} (h : dl.maxLen = some m) : copyLength dl n ≤ m := by
  unfold copyLength; rw [h]; simp only; split <;> omega

theorem copyLength_le_self (dl : VecL) (n : Nat) : copyLength dl n ≤ n := by
  unfold copyLength; split
  · omega
  · split <;> omega

theorem copyLength_ge {dl : VecL} {n k : Nat} (h : k ≤ n) (hm : k ≤ dl.maxBound) :
    k ≤ copyLength dl n := by
  unfold copyLength VecL.maxBound at *
  split
  · exact h
  · rename_i m hmm; rw [hmm] at hm; simp only at hm; split <;> omega

theorem isInl_true {l : VecL} {n : Nat} : l.isInl n = true ↔ l.minLen ≠ 0 ∧ n ≤ l.minLen := by
  simp [VecL.isInl]

theorem isInl_false {l : VecL} {n : Nat} : l.isInl n = false ↔ l.minLen = 0 ∨ l.minLen < n := by
  unfold VecL.isInl; by_cases h : l.minLen = 0 <;> simp [h]

theorem canOut_of {dl : VecL} {n : Nat} (h : dl.isInl (copyLength dl n) = false) : dl.canOut := by
  rw [isInl_false] at h
  unfold VecL.canOut
  by_cases h0 : dl.minLen = 0
  · exact Or.inl h0
  · right; intro hm
    have := copyLength_le (n := n) hm
    omega

theorem copyLoop_frame {H : Nat → Prop} {f : Nat → Nat → St → Res} {esz : Nat}
    (hf : ∀ sa da s, FrmRes (Head da esz) s (f sa da s)) (ss sw si ds dw di n : Nat) (st : St)
    (h : ∀ j, j < loopCount n → ∀ a, Head (elemAt ds dw (di + j)) esz a → H a) :
    FrmRes H st (copyLoop f ss sw si ds dw di n st) := by
  unfold copyLoop
  apply FrmRes.loop
  intro j s _ hj
  exact FrmRes.mono (hf _ _ s) (h j (by omega))

/-- The part of a vector that is written when the destination is not inline. -/
theorem outline_frame {H : Nat → Prop} {dl : VecL} {da deal esz : Nat} {st : St} {count : Nat}
    (hal : VecLayout dl esz deal) (hco : dl.canOut) (hH : ∀ a, Head da dl.size a → H a)
    (k : Nat → St → Res)
    (hk : ∀ p s, FrmRes (fun a => H a ∨ (p ≤ a ∧ a < p + dl.elemW * count)) s (k p s)) :
    FrmRes H st ((alignTo st deal).bind fun sta => (storeRef dl da sta).bind fun st1 =>
      (alloc st1 (dl.elemW * count)).bind fun st2 => k sta.ptr st2) := by
  obtain ⟨h8, hin, _⟩ := hal.ref hco
  refine FrmRes.bind (FrmRes.alignTo _ _ _) fun sta _ => ?_
  refine FrmRes.bind (FrmRes.storeRef _ _ _ h8 fun x h1 h2 => hH x ⟨by omega, by omega⟩) fun st1 hst1 => ?_
  have hp := (storeRef_ok hst1).1
  refine FrmRes.absorb (H' := fun _ a => H a ∨ (sta.ptr ≤ a ∧ a < sta.ptr + dl.elemW * count))
    (FrmRes.alloc _ _ _) (fun s _ => hk sta.ptr s) ?_
  intro s d hs hu hw hps a ha
  have := (alloc_ok hs).2.1
  rcases ha with ha | ha
  · exact Or.inl ha
  · right; omega

theorem xVector_frame (E : Env) (f : Nat → Nat → St → Res) (desz deal sesz sal : Nat) (dl sl : VecL)
    (sa da : Nat) (st : St) (hd : VecLayout dl desz deal) (hs : VecLayout sl sesz sal)
    (hc : VecCompat dl sl) (hf : ∀ sa da s, FrmRes (Head da desz) s (f sa da s)) :
    FrmRes (Head da dl.size) st (xVector E f desz deal dl sl sa da st) := by
  unfold xVector
  split
  · trivial
  rename_i n hn
  have hnW := lengthOp_lt hs hn
  have hcW : copyLength dl n < W64 := Nat.lt_of_le_of_lt (copyLength_le_self dl n) hnW
  have hlen := hd.lenIn
  have hst := hd.stride
  refine FrmRes.bind (FrmRes.storeLength _ _ _ _ fun x h1 h2 => ⟨by omega, by omega⟩) fun s1 _ => ?_
  -- elements of the inline and partial area
  have hinl : dl.minLen ≠ 0 → ∀ j, j < dl.minLen → ∀ a,
      Head (elemAt (da + dl.inlOff) dl.elemW j) desz a → Head da dl.size a := by
    intro h0 j hj a ha
    have := (hd.inl h0).1
    have := elem_in hj hst ha
    unfold Head at *; omega
  have hpar : dl.canOut → ∀ j, j < dl.ppl → ∀ a,
      Head (elemAt (da + dl.parOff) dl.elemW j) desz a → Head da dl.size a := by
    intro h0 j hj a ha
    have := (hd.par h0 (by omega)).1
    have := elem_in hj hst ha
    unfold Head at *; omega
  have hbuf : ∀ p count j, j < count → ∀ a, Head (elemAt p dl.elemW j) desz a →
      p ≤ a ∧ a < p + dl.elemW * count := by
    intro p count j hj a ha
    have := elem_in hj hst ha
    rw [Nat.mul_comm]; exact this
  have hpois : dl.minLen ≠ 0 → FrmRes (Head da dl.size) s1
      (.ok (s1.poison E.J (da + dl.inlOff) (desz * dl.minLen))) := by
    intro h0
    have h1 := (hd.inl h0).1
    have h2 : desz * dl.minLen ≤ dl.minLen * dl.elemW := by
      rw [Nat.mul_comm dl.minLen]; exact Nat.mul_le_mul_right _ hst
    exact Frm.poison _ _ _ _ fun x h1 h2 => ⟨by omega, by omega⟩
  split
  · -- source inline
    rename_i hsi
    unfold xInlineVec
    split
    · trivial
    rename_i hle
    split
    · rename_i hdi
      rw [isInl_true] at hdi
      refine FrmRes.bind (hpois hdi.1) fun s2 h2 => ?_
      refine copyLoop_frame hf _ _ _ _ _ _ _ _ fun j hj a ha => hinl hdi.1 j ?_ a (by simpa using ha)
      have := loopCount_le (copyLength dl n); omega
    · rename_i hdo
      have hdo : dl.isInl (copyLength dl n) = false := by simpa using hdo
      have hco := canOut_of hdo
      refine outline_frame hd hco (fun _ h => h)
        (fun p s => (copyLoop f (sa + sl.inlOff) sl.elemW 0 (da + dl.parOff) dl.elemW 0 dl.ppl s).bind
          fun st3 => copyLoop f (sa + sl.inlOff) sl.elemW dl.ppl p dl.elemW 0
            (sub64 (copyLength dl n) dl.ppl) st3) fun p s => ?_
      refine FrmRes.bind (copyLoop_frame hf _ _ _ _ _ _ _ _ fun j hj a ha => Or.inl ?_) fun s' _ =>
        copyLoop_frame hf _ _ _ _ _ _ _ _ fun j hj a ha => Or.inr ?_
      · have := loopCount_le dl.ppl
        exact hpar hco j (by omega) a (by simpa using ha)
      · have := loopCount_le (sub64 (copyLength dl n) dl.ppl)
        exact hbuf p _ j (by omega) a (by simpa using ha)
  · -- source not inline
    rename_i hso
    have hso : sl.isInl n = false := by simpa using hso
    rw [isInl_false] at hso
    have hsp := hs.ppl
    have hnp : sl.ppl ≤ n := by omega
    unfold xOutlineVec
    split
    · trivial
    split
    · rename_i _ hdi
      rw [isInl_true] at hdi
      refine FrmRes.bind (r := copyLoop _ _ _ _ _ _ _ _ (s1.poison E.J (da + dl.inlOff) (desz * dl.minLen)))
        ?_ fun s2 h2 => ?_
      · refine FrmRes.bind (hpois hdi.1) fun s2 h2 => ?_
        refine copyLoop_frame hf _ _ _ _ _ _ _ _ fun j hj a ha => hinl hdi.1 j ?_ a (by simpa using ha)
        have h1 := loopCount_le (min sl.ppl dl.maxBound)
        have h2 : min sl.ppl dl.maxBound ≤ copyLength dl n := copyLength_ge (by omega) (by omega)
        omega
      · refine copyLoop_frame hf _ _ _ _ _ _ _ _ fun j hj a ha => hinl hdi.1 _ ?_ a ha
        have h1 := loopCount_le (sub64 (copyLength dl n) (min sl.ppl dl.maxBound))
        have h2 : min sl.ppl dl.maxBound ≤ copyLength dl n := copyLength_ge (by omega) (by omega)
        rw [sub64_eq h2 hcW] at *
        omega
    · rename_i _ hdo
      have hdo : dl.isInl (copyLength dl n) = false := by simpa using hdo
      have hco := canOut_of hdo
      refine outline_frame hd hco (fun _ h => h)
        (fun p s => if sl.ppl ≤ dl.ppl then
            (copyLoop f (sa + sl.parOff) sl.elemW 0 (da + dl.parOff) dl.elemW 0 sl.ppl s).bind
              fun st3 => (copyLoop f (refStart E.S sl sa) sl.elemW 0 (da + dl.parOff) dl.elemW sl.ppl
                (dl.ppl - sl.ppl) st3).bind fun st4 =>
              copyLoop f (refStart E.S sl sa) sl.elemW (dl.ppl - sl.ppl) p dl.elemW 0
                (sub64 (copyLength dl n) dl.ppl) st4
          else
            (copyLoop f (sa + sl.parOff) sl.elemW 0 (da + dl.parOff) dl.elemW 0 dl.ppl s).bind
              fun st3 => (copyLoop f (sa + sl.parOff) sl.elemW dl.ppl p dl.elemW 0
                (sl.ppl - dl.ppl) st3).bind fun st4 =>
              copyLoop f (refStart E.S sl sa) sl.elemW 0 p dl.elemW (sl.ppl - dl.ppl)
                (sub64 (copyLength dl n) sl.ppl) st4) fun p s => ?_
      split
      · rename_i hpp
        refine FrmRes.bind (copyLoop_frame hf _ _ _ _ _ _ _ _ fun j hj a ha => Or.inl ?_) fun s3 _ =>
          FrmRes.bind (copyLoop_frame hf _ _ _ _ _ _ _ _ fun j hj a ha => Or.inl ?_) fun s4 _ =>
          copyLoop_frame hf _ _ _ _ _ _ _ _ fun j hj a ha => Or.inr ?_
        · have := loopCount_le sl.ppl
          exact hpar hco j (by omega) a (by simpa using ha)
        · have := loopCount_le (dl.ppl - sl.ppl)
          exact hpar hco _ (by omega) a ha
        · have := loopCount_le (sub64 (copyLength dl n) dl.ppl)
          exact hbuf p _ j (by omega) a (by simpa using ha)
      · rename_i hpp
        have hmb : sl.ppl ≤ dl.maxBound := by
          rcases hc with h | ⟨h0, h⟩
          · exact h
          · rw [isInl_false] at hdo
            unfold VecL.maxBound at h ⊢
            have := hs.min
            cases hm : dl.maxLen with
            | none => simp only; omega
            | some m =>
              rw [hm] at h; simp only at h ⊢
              have := copyLength_le (n := n) hm; omega
        have hcp : sl.ppl ≤ copyLength dl n := copyLength_ge hnp hmb
        refine FrmRes.bind (copyLoop_frame hf _ _ _ _ _ _ _ _ fun j hj a ha => Or.inl ?_) fun s3 _ =>
          FrmRes.bind (copyLoop_frame hf _ _ _ _ _ _ _ _ fun j hj a ha => Or.inr ?_) fun s4 _ =>
          copyLoop_frame hf _ _ _ _ _ _ _ _ fun j hj a ha => Or.inr ?_
        · have := loopCount_le dl.ppl
          exact hpar hco j (by omega) a (by simpa using ha)
        · have := loopCount_le (sl.ppl - dl.ppl)
          refine hbuf p _ j ?_ a (by simpa using ha)
          rw [sub64_eq (by omega) hcW]; omega
        · have := loopCount_le (sub64 (copyLength dl n) sl.ppl)
          refine hbuf p _ _ ?_ a ha
          rw [sub64_eq (by omega) hcW] at *; omega

theorem beginTerm_frame {H : Nat → Prop} {l : VarL} {da g sz : Nat} {st : St}
    (h : ∀ a, da + l.tagOff ≤ a → a < da + l.tagOff + l.tagW → H a) :
    FrmRes H st (beginTerm l da g sz st) := by
  unfold beginTerm
  refine FrmRes.bind (r := storeTag l da g st) ?_ fun s _ => ?_
  · unfold storeTag; split
    · trivial
    · exact Frm.store _ _ _ _ h
  · split
    · exact FrmRes.alloc _ _ _
    · exact Frm.refl _ _

/-- What `beginTerm` does to the buffer. -/
theorem beginTerm_ok {l : VarL} {da g sz : Nat} {st s : St} (h : beginTerm l da g sz st = .ok s) :
    s.used = st.used + (if l.outline then sz else 0) := by
  unfold beginTerm storeTag at h
  split at h
  · cases h
  · simp only [Res.bind] at h
    split at h
    · rename_i ho; rw [(alloc_ok h).2.1]; simp [ho, St.store]
    · rename_i ho; cases h; simp [ho, St.store]

/-- Selecting and transcoding one term. -/
theorem term_frame {l : VarL} {ts : List Term} (hl : VarLayout ts l) {t : Term} (ht : t ∈ ts)
    {da g : Nat} {st : St} (hout : l.outline = true → st.ptr = da + l.termOff) {k : St → Res}
    (hk : ∀ s, FrmRes (Head (da + l.termOff) t.ty.size) s (k s)) :
    FrmRes (Head da l.size) st ((beginTerm l da g t.ty.size st).bind k) := by
  have htag := hl.tagIn
  refine FrmRes.absorb (H' := fun _ => Head (da + l.termOff) t.ty.size)
    (beginTerm_frame fun a h1 h2 => ⟨by omega, by omega⟩) (fun s _ => hk s) ?_
  intro s d hs hu hw hps a ha
  have hb := beginTerm_ok hs
  cases ho : l.outline with
  | true =>
    have := hout ho
    rw [ho] at hb; simp only [if_true] at hb
    unfold Head at *; right; omega
  | false =>
    have := hl.inside ho t ht
    unfold Head at *; left; omega

theorem switchOn_mem {β} (tag : Nat) (d : β) : ∀ (vs : List Nat) (bs : List β),
    switchOn tag d vs bs = d ∨ switchOn tag d vs bs ∈ bs
  | [], _ => by simp [switchOn]
  | _ :: _, [] => by simp [switchOn]
  | v :: vs, b :: bs => by
    simp only [switchOn]
    split
    · simp
    · rcases switchOn_mem tag d vs bs with h | h
      · exact Or.inl h
      · exact Or.inr (List.mem_cons_of_mem _ h)

theorem selectTerm_mem {S : Mem} {sts : Terms} {sl : VarL} {path : Path} {sa : Nat} {t : Term}
    (h : selectTerm S sts sl path sa = some (some t)) : t ∈ sts.toList := by
  unfold selectTerm at h
  split at h
  · split at h
    · rename_i hf; cases h; exact List.mem_of_find?_eq_some hf
    · cases h
  · split at h
    · cases h
    · split at h
      · cases h
      · simp only [Option.some.injEq] at h
        unfold matchTag at h
        rcases switchOn_mem (readN S (sa + sl.tagOff) sl.tagW) none
          (matchCaseVals (sts.toList.map fun t => (t.tag, some t)))
          ((matchBlocks (sts.toList.map fun t => (t.tag, some t))).map (·.2)) with h1 | h1
        · rw [h1] at h; cases h
        · rw [h] at h1
          simp only [List.mem_map, matchBlocks, sortBy_mem] at h1
          obtain ⟨x, ⟨y, hy, rfl⟩, hx⟩ := h1
          simp only [Option.some.injEq] at hx
          exact hx ▸ hy

theorem tame_unit (t : Ty) (h : t.hasOut = false) : Tame t .unit := by
  cases t <;> simp_all [Tame, Ty.hasOut]

theorem tame_unit_hasOut (t : Ty) (h : Tame t .unit) : t.hasOut = false := by
  cases t <;> simp_all [Tame, Ty.hasOut]

mutual
theorem compat_tame : ∀ t src : Ty, Compat t src → Tame t src
  | .unit, _, _ => by simp [Tame]
  | .int _ _ _, _, _ => by simp [Tame]
  | .float _ _, _, _ => by simp [Tame]
  | .struct fs _ _, src, h => by
    cases src <;> simp only [Compat, Tame] at h ⊢ <;> try exact h
    exact compatFields_tame fs _ h
  | .variant ts l, src, h => by
    cases src <;> simp only [Compat, Tame] at h ⊢ <;> try exact h
    intro t ht
    have h1 := h.2 t ht
    split
    · rename_i hn
      rw [if_pos hn] at h1; exact compatNamed_tame ts _ _ h1
    · rename_i hn
      rw [if_neg hn] at h1; exact compatAt_tame ts _ _ h1
  | .array e _ _ _, src, h => by
    cases src <;> simp only [Compat, Tame] at h ⊢
    exact compat_tame e _ h
  | .vector e _, src, h => by
    cases src <;> simp only [Compat, Tame] at h ⊢
    exact ⟨compat_tame e _ h.1, h.2⟩
theorem compatFields_tame : ∀ (fs sfs : Fields), CompatFields fs sfs → TameFields fs sfs
  | .nil, _, _ => by simp [TameFields]
  | .cons c _ t r, sfs, h => by
    simp only [CompatFields, TameFields] at h ⊢
    refine ⟨?_, compatFields_tame r sfs h.2⟩
    have h1 := h.1
    split
    · rename_i hf
      rw [hf] at h1; exact compat_tame t _ h1
    · rename_i hf
      rw [hf] at h1; exact h1
theorem compatNamed_tame : ∀ (ts : Terms) (c : Comp) (s : Ty), CompatNamed ts c s → TameNamed ts c s
  | .nil, _, _, _ => by simp [TameNamed]
  | .cons _ _ _ t r, c, s, h => by
    simp only [CompatNamed, TameNamed] at h ⊢
    exact ⟨fun hn => compat_tame t s (h.1 hn), compatNamed_tame r c s h.2⟩
theorem compatAt_tame : ∀ (ts : Terms) (i : Nat) (s : Ty), CompatAt ts i s → TameAt ts i s
  | .nil, _, _, _ => by simp [TameAt]
  | .cons _ _ _ t _, 0, s, h => by
    simp only [CompatAt, TameAt] at h ⊢; exact compat_tame t s h
  | .cons _ _ _ _ r, i + 1, s, h => by
    simp only [CompatAt, TameAt] at h ⊢; exact compatAt_tame r i s h
end

theorem unit_tameAt : ∀ (ts : Terms) (i : Nat), ts.noOut → TameAt ts i .unit
  | .nil, _, _ => by simp [TameAt]
  | .cons _ _ _ t r, 0, h => by
    simp only [Terms.noOut] at h
    simp only [TameAt]; exact tame_unit _ (noOut_hasOut _ h.1)
  | .cons _ _ _ t r, i + 1, h => by
    simp only [Terms.noOut] at h
    simp only [TameAt]; exact unit_tameAt r i h.2

mutual
theorem xcode_frame (E : Env) : ∀ (t : Ty) (src : Ty) (path : Path) (hs : Handlers) (sa da : Nat)
    (st : St), WF t → WF src → Tame t src → OutAt t da st.ptr →
    FrmRes (Head da t.size) st (xcode E t src path hs sa da st)
  | .unit, src, path, hs, sa, da, st, _, _, _, _ => by simp only [xcode]; exact Frm.refl _ _
  | .int w s al, src, path, hs, sa, da, st, hw, hws, hc, ho => by
    cases src <;> simp only [xcode] <;> try trivial
    · split
      · trivial
      · exact Frm.store _ _ _ _ fun x h1 h2 => ⟨h1, h2⟩
    · exact DRes.frm (DRes.keepBuf (dflt_frame E _ _ _ _ hw (by simp [Ty.noOut])))
  | .float w al, src, path, hs, sa, da, st, hw, hws, hc, ho => by
    cases src <;> simp only [xcode] <;> try trivial
    · split
      · exact Frm.store _ _ _ _ fun x h1 h2 => ⟨h1, h2⟩
      · trivial
    · exact DRes.frm (DRes.keepBuf (dflt_frame E _ _ _ _ hw (by simp [Ty.noOut])))
  | .struct fs sz al, src, path, hs, sa, da, st, hw, hws, hc, ho => by
    cases src with
    | unit =>
      simp only [xcode]
      exact DRes.frm (DRes.keepBuf (dflt_frame E _ _ _ _ hw
        (outAt_noOut _ _ _ ho (tame_unit_hasOut _ hc))))
    | struct sfs ssz sal =>
      simp only [xcode, Ty.size]
      simp only [WF] at hw hws
      simp only [Tame] at hc
      simp only [OutAt] at ho
      have h0 : FrmRes (Head da sz) st (.ok (st.poison E.J da sz)) :=
        Frm.poison _ _ _ _ fun x h1 h2 => ⟨h1, h2⟩
      refine FrmRes.bind (f := fun s => (xFields E fs true sfs path hs sa da s).bind
        (xFields E fs false sfs path hs sa da)) h0 fun s hs1 => ?_
      cases hs1
      refine FrmRes.bind (xFields_frame E fs true sfs path hs sa da sz _ hw.1 hw.2.inside hws.1 hc
        ?_) fun s' _ => xFields_frame E fs false sfs path hs sa da sz s' hw.1 hw.2.inside hws.1 hc ?_
      · exact ⟨st.ptr, ho, fun _ _ => rfl⟩
      · exact ⟨st.ptr, ho, fun h => by cases h⟩
    | _ => simp only [xcode]; trivial
  | .variant ts l, src, path, hs, sa, da, st, hw, hws, hc, ho => by
    cases src with
    | unit =>
      simp only [xcode]
      exact DRes.frm (DRes.keepBuf (dflt_frame E _ _ _ _ hw
        (outAt_noOut _ _ _ ho (tame_unit_hasOut _ hc))))
    | variant sts sl =>
      simp only [WF] at hw hws
      simp only [Tame] at hc
      simp only [OutAt] at ho
      have htag := hw.2.tagIn
      simp only [xcode, Ty.size]
      split
      · unfold xEnum
        split
        · trivial
        · split
          · trivial
          · exact Frm.store _ _ _ _ fun x h1 h2 => ⟨by omega, by omega⟩
      · split
        · trivial
        · split
          · trivial
          · exact xAt_frame E ts l l.dflt .unit _ _ da st ts.toList hw.1 hw.2 (fun _ h => h) ho.2 trivial
              (unit_tameAt ts l.dflt ho.2) (fun h => ho.1 h)
          · rename_i t hsel
            have htm := selectTerm_mem hsel
            have hcc := hc t htm
            have hwt := terms_WF sts hws.1 t htm
            split
            · rename_i hn
              rw [if_pos hn] at hcc
              exact FrmRes.bind (xNamed_frame E ts l t.name t.ty _ da st ts.toList hw.1 hw.2
                (fun _ h => h) ho.2 hwt hcc (fun h => ho.1 h)) fun s _ => FrmRes.setCb _ _ _ _
            · rename_i hn
              rw [if_neg hn] at hcc
              exact xAt_frame E ts l l.dflt t.ty _ _ da st ts.toList hw.1 hw.2 (fun _ h => h) ho.2 hwt
                hcc (fun h => ho.1 h)
    | _ => simp only [xcode]; trivial
  | .array e n esz al, src, path, hs, sa, da, st, hw, hws, hc, ho => by
    cases src with
    | unit =>
      simp only [xcode]
      exact DRes.frm (DRes.keepBuf (dflt_frame E _ _ _ _ hw
        (outAt_noOut _ _ _ ho (tame_unit_hasOut _ hc))))
    | array se sn sesz sal =>
      simp only [WF] at hw hws
      simp only [Tame] at hc
      simp only [OutAt] at ho
      simp only [xcode, Ty.size]
      refine FrmRes.bind (FrmRes.loop _ _ _ fun j s _ hj => ?_) fun s _ =>
        FrmRes.loop _ _ _ fun j s _ hj => ?_
      · exact FrmRes.mono (xcode_frame E e se [] [] _ _ s hw.1 hws.1 hc (noOut_outAt _ _ _ ho))
          fun a ha => elem_in (by omega) hw.2 ha
      · exact FrmRes.mono (DRes.frm (DRes.keepBuf (dflt_frame E e [] _ s hw.1 ho)))
          fun a ha => elem_in (by omega) hw.2 ha
    | _ => simp only [xcode]; trivial
  | .vector e l, src, path, hs, sa, da, st, hw, hws, hc, ho => by
    cases src with
    | unit =>
      simp only [xcode]
      exact DRes.frm (DRes.keepBuf (dflt_frame E _ _ _ _ hw
        (outAt_noOut _ _ _ ho (tame_unit_hasOut _ hc))))
    | vector se sl =>
      simp only [WF] at hw hws
      simp only [Tame] at hc
      simp only [OutAt] at ho
      simp only [xcode, Ty.size]
      exact xVector_frame E _ _ _ _ _ _ _ _ _ _ hw.2 hws.2 hc.2 fun sa' da' s =>
        xcode_frame E e se [] [] sa' da' s hw.1 hws.1 hc.1 (noOut_outAt _ _ _ ho)
    | _ => simp only [xcode]; trivial

theorem xFields_frame (E : Env) : ∀ (fs : Fields) (out : Bool) (sfs : Fields) (path : Path)
    (hs : Handlers) (sa da sz : Nat) (st : St), WFFields fs →
    (∀ x ∈ fs.toList, x.2.1 + x.2.2.size ≤ sz) → WFFields sfs → TameFields fs sfs →
    (∃ p, OutAtFields fs da p ∧ (out = true → fs.hasOut = true → p = st.ptr)) →
    FrmRes (Head da sz) st (xFields E fs out sfs path hs sa da st)
  | .nil, out, sfs, path, hs, sa, da, sz, st, _, _, _, _, _ => by
    simp only [xFields]; exact Frm.refl _ _
  | .cons c off t r, out, sfs, path, hs, sa, da, sz, st, hw, hin, hws, hc, ⟨p, ho, hp⟩ => by
    simp only [WFFields] at hw
    simp only [Fields.toList, List.mem_cons, forall_eq_or_imp] at hin
    simp only [TameFields] at hc
    simp only [OutAtFields] at ho
    simp only [xFields]
    have hcur : FrmRes (Head da sz) st (if t.hasOut = out then
        match sfs.findLast c with
        | some (so, sty) => xcode E t sty (path.into c) (hs.into c) (sa + so) (da + off) st
        | none => keepBuf st (dflt E t (hs.into c) (da + off) st)
        else .ok st) := by
      split
      · rename_i hto
        split
        · rename_i so sty hfl
          have hc1 := hc.1
          rw [hfl] at hc1; simp only at hc1
          refine FrmRes.mono (xcode_frame E t sty _ _ _ (da + off) st hw.1
            (findLast_WF _ _ _ _ hws hfl) hc1 ?_) fun a ha => ?_
          · cases h : t.hasOut with
            | true =>
              have h1 := ho.1
              rw [h] at h1; simp only [if_true] at h1
              rw [← hp (by rw [← hto, h]) (by simp [Fields.hasOut, h])]
              exact h1.1
            | false =>
              have h1 := ho.1
              rw [h] at h1
              exact noOut_outAt _ _ _ (by simpa using h1)
          · have := hin.1; unfold Head at *; omega
        · rename_i hfl
          have hc1 := hc.1
          rw [hfl] at hc1; simp only at hc1
          have h1 := ho.1
          rw [hc1] at h1
          refine FrmRes.mono (DRes.frm (DRes.keepBuf (dflt_frame E t _ (da + off) st hw.1
            (by simpa using h1)))) fun a ha => ?_
          have := hin.1; unfold Head at *; omega
      · exact Frm.refl _ _
    refine FrmRes.bind hcur fun s hs' => ?_
    refine xFields_frame E r out sfs path hs sa da sz s hw.2 hin.2 hws hc.2 ⟨p, ho.2, ?_⟩
    intro hout hr
    -- the rest has an outlined field, so this one was skipped
    cases h : t.hasOut with
    | true =>
      have h1 := ho.1
      rw [h] at h1; simp only [if_true] at h1
      rw [hr] at h1; exact absurd h1.2 (by decide)
    | false =>
      rw [hout, h] at hs'
      simp only [Bool.false_eq_true, if_false] at hs'
      cases hs'
      exact hp hout (by simp [Fields.hasOut, hr])

theorem xNamed_frame (E : Env) : ∀ (ts : Terms) (l : VarL) (c : Comp) (sty : Ty) (sa da : Nat)
    (st : St) (all : List Term), WFTerms ts → VarLayout all l → (∀ t ∈ ts.toList, t ∈ all) →
    ts.noOut → WF sty → TameNamed ts c sty → (l.outline = true → st.ptr = da + l.termOff) →
    FrmRes (Head da l.size) st (xNamed E ts l c sty sa da st)
  | .nil, l, c, sty, sa, da, st, all, _, _, _, _, _, _, _ => by
    simp only [xNamed]; exact Frm.refl _ _
  | .cons n g as t r, l, c, sty, sa, da, st, all, hw, hl, hall, hno, hws, hc, ho => by
    simp only [WFTerms] at hw
    simp only [Terms.toList, List.mem_cons, forall_eq_or_imp] at hall
    simp only [Terms.noOut] at hno
    simp only [TameNamed] at hc
    have hrest := xNamed_frame E r l c sty sa da st all hw.2 hl hall.2 hno.2 hws hc.2 ho
    simp only [xNamed]
    split
    · rename_i hn
      split
      · trivial
      · exact term_frame hl hall.1 ho fun s => xcode_frame E t sty [] [] sa _ s hw.1 hws (hc.1 hn)
          (noOut_outAt _ _ _ hno.1)
      · exact hrest
    · exact hrest

theorem xAt_frame (E : Env) : ∀ (ts : Terms) (l : VarL) (i : Nat) (sty : Ty)
    (hm : List (Comp × Nat)) (sa da : Nat) (st : St) (all : List Term), WFTerms ts →
    VarLayout all l → (∀ t ∈ ts.toList, t ∈ all) → ts.noOut → WF sty → TameAt ts i sty →
    (l.outline = true → st.ptr = da + l.termOff) →
    FrmRes (Head da l.size) st (xAt E ts l i sty hm sa da st)
  | .nil, l, i, sty, hm, sa, da, st, all, _, _, _, _, _, _, _ => by simp only [xAt]; trivial
  | .cons n g as t r, l, 0, sty, hm, sa, da, st, all, hw, hl, hall, hno, hws, hc, ho => by
    simp only [WFTerms] at hw
    simp only [Terms.toList, List.mem_cons, forall_eq_or_imp] at hall
    simp only [Terms.noOut] at hno
    simp only [TameAt] at hc
    simp only [xAt]
    refine FrmRes.bind ?_ fun s _ => FrmRes.setCb _ _ _ _
    split
    · trivial
    · exact Frm.refl _ _
    · exact term_frame hl hall.1 ho fun s => xcode_frame E t sty [] [] sa _ s hw.1 hws hc
        (noOut_outAt _ _ _ hno.1)
  | .cons n g as t r, l, i + 1, sty, hm, sa, da, st, all, hw, hl, hall, hno, hws, hc, ho => by
    simp only [WFTerms] at hw
    simp only [Terms.toList, List.mem_cons, forall_eq_or_imp] at hall
    simp only [Terms.noOut] at hno
    simp only [TameAt] at hc
    simp only [xAt]
    exact xAt_frame E r l i sty hm sa da st all hw.2 hl hall.2 hno.2 hws hc ho

end

theorem noPart_findLast : ∀ {fs : Fields} {c : Comp} {o : Nat} {t : Ty}, fs.noPart →
    fs.findLast c = some (o, t) → t.noPart
  | .nil, _, _, _, _, h => by simp [Fields.findLast] at h
  | .cons n o' t' r, c, o, t, hp, h => by
    simp only [Fields.findLast] at h
    split at h
    · rename_i x hx
      cases h
      exact noPart_findLast hp.2 hx
    · split at h
      · cases h; exact hp.1
      · cases h

theorem noPart_mem : ∀ {ts : Terms} {t : Term}, ts.noPart → t ∈ ts.toList → t.ty.noPart
  | .nil, _, _, h => by simp [Terms.toList] at h
  | .cons _ _ _ _ r, t, hp, h => by
    simp only [Terms.toList, List.mem_cons] at h
    rcases h with rfl | h
    · exact hp.1
    · exact noPart_mem hp.2 h

mutual
theorem tame_noPart : ∀ t src : Ty, OutGiven t src → src.noPart → Tame t src
  | .unit, _, _, _ => by simp [Tame]
  | .int _ _ _, _, _, _ => by simp [Tame]
  | .float _ _, _, _, _ => by simp [Tame]
  | .struct fs _ _, src, h, hn => by
    cases src <;> simp only [OutGiven, Tame, Ty.noPart] at h hn ⊢ <;> try exact h
    exact tameFields_noPart fs _ h hn
  | .variant ts l, src, h, hn => by
    cases src <;> simp only [OutGiven, Tame, Ty.noPart] at h hn ⊢ <;> try exact h
    intro t ht
    have h1 := h t ht
    have h2 := noPart_mem hn ht
    split
    · rename_i hn
      rw [if_pos hn] at h1; exact tameNamed_noPart ts _ _ h1 h2
    · rename_i hn
      rw [if_neg hn] at h1; exact tameAt_noPart ts _ _ h1 h2
  | .array e _ _ _, src, h, hn => by
    cases src <;> simp only [OutGiven, Tame, Ty.noPart] at h hn ⊢
    exact tame_noPart e _ h hn
  | .vector e _, src, h, hn => by
    cases src <;> simp only [OutGiven, Tame, Ty.noPart] at h hn ⊢
    exact ⟨tame_noPart e _ h hn.2, Or.inl (by omega)⟩
theorem tameFields_noPart : ∀ (fs sfs : Fields), OutGivenFields fs sfs → sfs.noPart → TameFields fs sfs
  | .nil, _, _, _ => by simp [TameFields]
  | .cons c _ t r, sfs, h, hn => by
    simp only [OutGivenFields, TameFields] at h ⊢
    refine ⟨?_, tameFields_noPart r sfs h.2 hn⟩
    have h1 := h.1
    split
    · rename_i hf
      rw [hf] at h1; exact tame_noPart t _ h1 (noPart_findLast hn hf)
    · rename_i hf
      rw [hf] at h1; exact h1
theorem tameNamed_noPart : ∀ (ts : Terms) (c : Comp) (s : Ty), OutGivenNamed ts c s → s.noPart →
    TameNamed ts c s
  | .nil, _, _, _, _ => by simp [TameNamed]
  | .cons _ _ _ t r, c, s, h, hn => by
    simp only [OutGivenNamed, TameNamed] at h ⊢
    exact ⟨fun hc => tame_noPart t s (h.1 hc) hn, tameNamed_noPart r c s h.2 hn⟩
theorem tameAt_noPart : ∀ (ts : Terms) (i : Nat) (s : Ty), OutGivenAt ts i s → s.noPart → TameAt ts i s
  | .nil, _, _, _, _ => by simp [TameAt]
  | .cons _ _ _ t _, 0, s, h, hn => by
    simp only [OutGivenAt, TameAt] at h ⊢; exact tame_noPart t s h hn
  | .cons _ _ _ _ r, i + 1, s, h, hn => by
    simp only [OutGivenAt, TameAt] at h ⊢; exact tameAt_noPart r i s h hn
end

mutual
theorem noOut_given : ∀ t src : Ty, t.noOut → OutGiven t src
  | .unit, _, _ => by simp [OutGiven]
  | .int _ _ _, _, _ => by simp [OutGiven]
  | .float _ _, _, _ => by simp [OutGiven]
  | .struct fs sz al, src, h => by
    cases src <;> simp only [OutGiven]
    · simpa [Ty.hasOut] using noOut_hasOut _ h
    · exact noOut_givenFields fs _ h
  | .variant ts l, src, h => by
    cases src <;> simp only [OutGiven]
    · exact h.1
    · intro t _
      split
      · exact noOut_givenNamed ts _ _ h.2
      · exact noOut_givenAt ts _ _ h.2
  | .array e _ _ _, src, h => by
    cases src <;> simp only [OutGiven]
    exact noOut_given e _ h
  | .vector e _, src, h => by
    cases src <;> simp only [OutGiven]
    exact noOut_given e _ h
theorem noOut_givenFields : ∀ fs sfs : Fields, fs.noOut → OutGivenFields fs sfs
  | .nil, _, _ => by simp [OutGivenFields]
  | .cons c _ t r, sfs, h => by
    simp only [OutGivenFields]
    refine ⟨?_, noOut_givenFields r sfs h.2⟩
    split
    · exact noOut_given t _ h.1
    · exact noOut_hasOut t h.1
theorem noOut_givenNamed : ∀ (ts : Terms) (c : Comp) (s : Ty), ts.noOut → OutGivenNamed ts c s
  | .nil, _, _, _ => by simp [OutGivenNamed]
  | .cons _ _ _ t r, c, s, h => by
    simp only [OutGivenNamed]
    exact ⟨fun _ => noOut_given t s h.1, noOut_givenNamed r c s h.2⟩
theorem noOut_givenAt : ∀ (ts : Terms) (i : Nat) (s : Ty), ts.noOut → OutGivenAt ts i s
  | .nil, _, _, _ => by simp [OutGivenAt]
  | .cons _ _ _ t _, 0, s, h => by simp only [OutGivenAt]; exact noOut_given t s h.1
  | .cons _ _ _ _ r, i + 1, s, h => by simp only [OutGivenAt]; exact noOut_givenAt r i s h.2
end

end PJ
