import Verif.Spec.Aligned
import Verif.Lemmas.Round
import Verif.Lemmas.StraightLine
import Verif.Lemmas.Tight
import Verif.Props.C41_Align
/-!
# Where everything is aligned, no check fails
-/
namespace PJ

theorem Chk.load_eq {A : Chk} {a al : Nat} {r : Res} (h : A.src = true → al ∣ a) : A.load a al r = r := by
  unfold Chk.load
  cases hs : A.src
  · simp
  · simp [Nat.mod_eq_zero_of_dvd (h hs)]

theorem Chk.store_eq {A : Chk} {a al : Nat} {r : Res} (h : A.dst = true → al ∣ a) : A.store a al r = r := by
  unfold Chk.store
  cases hs : A.dst
  · simp
  · simp [Nat.mod_eq_zero_of_dvd (h hs)]

theorem Chk.loadOpt_eq {α : Type} {A : Chk} {a al : Nat} {r : Option α} (h : A.src = true → al ∣ a) :
    A.loadOpt a al r = r := by
  unfold Chk.loadOpt
  cases hs : A.src
  · simp
  · simp [Nat.mod_eq_zero_of_dvd (h hs)]

/-- An object of a type with an aligned layout at an aligned address. -/
def Sits (t : Ty) (a : Nat) : Prop := Told t ∧ t.align ∣ a

theorem ToldFields_mem : ∀ {fs : Fields} {al : Nat}, ToldFields fs al → ∀ x ∈ fs.toList,
    Told x.2.2 ∧ x.2.2.align ∣ x.2.1 ∧ x.2.2.align ∣ al
  | .nil, _, _, x, hx => by simp [Fields.toList] at hx
  | .cons c o t r, al, h, x, hx => by
    simp only [Fields.toList, List.mem_cons] at hx
    rcases hx with rfl | hx
    · exact h.1
    · exact ToldFields_mem h.2 x hx

theorem ToldTerms_mem : ∀ {ts : Terms} {off al : Nat}, ToldTerms ts off al → ∀ x ∈ ts.toList,
    Told x.ty ∧ x.ty.align ∣ off ∧ x.ty.align ∣ al
  | .nil, _, _, _, x, hx => by simp [Terms.toList] at hx
  | .cons c g as t r, off, al, h, x, hx => by
    simp only [Terms.toList, List.mem_cons] at hx
    rcases hx with rfl | hx
    · exact h.1
    · exact ToldTerms_mem h.2 x hx

theorem PtrsFields_mem {S : Mem} : ∀ {fs : Fields} {path : Path} {a : Nat}, PtrsFields S fs path a →
    ∀ x ∈ fs.toList, Ptrs S x.2.2 (path.into x.1) (a + x.2.1)
  | .nil, _, _, _, x, hx => by simp [Fields.toList] at hx
  | .cons c o t r, path, a, h, x, hx => by
    simp only [Fields.toList, List.mem_cons] at hx
    rcases hx with rfl | hx
    · exact h.1
    · exact PtrsFields_mem h.2 x hx

theorem PtrsTerms_mem {S : Mem} : ∀ {ts : Terms} {a : Nat} {x : Term}, PtrsTerms S ts x.name x.tag a →
    x ∈ ts.toList → Ptrs S x.ty [] a
  | .nil, _, x, _, hx => by simp [Terms.toList] at hx
  | .cons c g as t r, a, x, h, hx => by
    simp only [Terms.toList, List.mem_cons] at hx
    rcases hx with rfl | hx
    · exact h.1 ⟨rfl, rfl⟩
    · exact PtrsTerms_mem h.2 hx

theorem Sits.field {fs : Fields} {sz al a : Nat} (h : Sits (.struct fs sz al) a) {x : Comp × Nat × Ty} (hx : x ∈ fs.toList) :
    Sits x.2.2 (a + x.2.1) :=
  have h1 := ToldFields_mem (show ToldFields fs al from h.1) x hx
  ⟨h1.1, Nat.dvd_add (Nat.dvd_trans h1.2.2 h.2) h1.2.1⟩

theorem Sits.term {ts : Terms} {l : VarL} {a : Nat} (h : Sits (.variant ts l) a) {x : Term} (hx : x ∈ ts.toList) :
    Sits x.ty (a + l.termOff) :=
  have h1 := ToldTerms_mem (show ToldTerms ts l.termOff (Ty.variant ts l).align from h.1.2) x hx
  ⟨h1.1, Nat.dvd_add (Nat.dvd_trans h1.2.2 h.2) h1.2.1⟩

theorem Sits.tag {ts : Terms} {l : VarL} {a : Nat} (h : Sits (.variant ts l) a) : natAlign l.tagW ∣ a + l.tagOff :=
  Nat.dvd_add (Nat.dvd_trans h.1.1.2 h.2) h.1.1.1

theorem Sits.elem {e : Ty} {n esz al a i : Nat} (h : Sits (.array e n esz al) a) (hi : i < n) :
    Sits e (elemAt a esz i) := by
  obtain ⟨h1, h2⟩ := h
  simp only [Told] at h1
  have h3 := h1.2 (by omega)
  exact ⟨h1.1, Nat.dvd_add (Nat.dvd_trans h3.2 h2) (Nat.dvd_trans h3.1 (Nat.dvd_mul_left _ _))⟩

theorem Sits.len {e : Ty} {l : VecL} {a : Nat} (h : Sits (.vector e l) a) : natAlign l.lenSize ∣ a + l.lenOff :=
  Nat.dvd_add (Nat.dvd_trans h.1.2.1.2 h.2) h.1.2.1.1

theorem Sits.ref {e : Ty} {l : VecL} {a : Nat} (h : Sits (.vector e l) a) (hc : l.canOut) :
    natAlign l.refSize ∣ a + l.refOff :=
  Nat.dvd_add (Nat.dvd_trans (h.1.2.2.1 hc).2 h.2) (h.1.2.2.1 hc).1

theorem Sits.at {e : Ty} {l : VecL} {a p i : Nat} (h : Sits (.vector e l) a) (hp : e.align ∣ p) :
    Sits e (elemAt p l.elemW i) :=
  ⟨h.1.1, Nat.dvd_add hp (Nat.dvd_trans h.1.2.2.2.1 (Nat.dvd_mul_left _ _))⟩

theorem Sits.inl {e : Ty} {l : VecL} {a i : Nat} (h : Sits (.vector e l) a) (hm : l.minLen ≠ 0) :
    Sits e (elemAt (a + l.inlOff) l.elemW i) :=
  h.at (Nat.dvd_add (Nat.dvd_trans (h.1.2.2.2.2.1 hm).2 h.2) (h.1.2.2.2.2.1 hm).1)

theorem Sits.par {e : Ty} {l : VecL} {a i : Nat} (h : Sits (.vector e l) a) (hm : l.ppl ≠ 0) (hl : l.ppl ≤ l.minLen) :
    Sits e (elemAt (a + l.parOff) l.elemW i) :=
  h.at (Nat.dvd_add (Nat.dvd_trans (h.1.2.2.2.2.1 (by omega)).2 h.2) (h.1.2.2.2.2.2 hm))

/-! ## Loops -/

theorem loop_congr {f g : Nat → St → Res} : ∀ (n i : Nat) (st : St),
    (∀ j, i ≤ j → j < i + n → ∀ s, f j s = g j s) → loop f n i st = loop g n i st
  | 0, _, _, _ => rfl
  | n + 1, i, st, h => by
    simp only [loop]
    rw [h i (Nat.le_refl _) (by omega) st]
    congr 1
    funext s
    exact loop_congr n (i + 1) s fun j hj hj' => h j (by omega) (by omega)

theorem copyLoop_congr {f g : Nat → Nat → St → Res} {ss sw si ds dw di n : Nat} {st : St} (k : Nat) (hk : loopCount n ≤ k)
    (h : ∀ i, i < k → ∀ s, f (elemAt ss sw (si + i)) (elemAt ds dw (di + i)) s =
      g (elemAt ss sw (si + i)) (elemAt ds dw (di + i)) s) :
    copyLoop f ss sw si ds dw di n st = copyLoop g ss sw si ds dw di n st := by
  unfold copyLoop
  exact loop_congr _ _ _ fun j _ hj => h j (by omega)

theorem loopCount_sub_le {a b : Nat} (ha : a < W64) (hb : b < 2 ^ 63) : loopCount (sub64 a b) ≤ a - b := by
  unfold loopCount sub64 W64 at *
  split <;> omega

theorem bind_congr {r : Res} {f g : St → Res} (h : ∀ s, r = .ok s → f s = g s) : r.bind f = r.bind g := by
  cases r with
  | ok s => exact h s rfl
  | throw s => rfl
  | ub => rfl

theorem bind_congr2 {r r' : Res} {f g : St → Res} (hr : r = r') (h : ∀ s, f s = g s) : r.bind f = r'.bind g := by
  rw [hr, funext h]

/-! ## Lengths and conditions -/

theorem aLengthOp_eq {A : Chk} {S : Mem} {l : VecL} {a : Nat} (h : A.src = true → natAlign l.lenSize ∣ a + l.lenOff) :
    aLengthOp A S l a = lengthOp S l a := by
  unfold aLengthOp
  split
  · rfl
  · exact Chk.loadOpt_eq h

theorem mem_find {c : Comp} {o : Nat} {t : Ty} : ∀ {fs : Fields}, fs.find c = some (o, t) → (c, o, t) ∈ fs.toList
  | .nil, h => by simp [Fields.find] at h
  | .cons n o' t' r, h => by
    simp only [Fields.find] at h
    simp only [Fields.toList, List.mem_cons]
    split at h
    · rename_i hn
      cases h
      exact .inl (by rw [hn])
    · exact .inr (mem_find h)

theorem projVec_sits : ∀ (p : Path) (t : Ty) (a : Nat) (l : VecL) (b : Nat), Sits t a → projVec t a p = some (l, b) →
    natAlign l.lenSize ∣ b + l.lenOff
  | [], t, a, l, b, _, h => by simp [projVec] at h
  | [c], t, a, l, b, hs, h => by
    cases t with
    | vector e l' =>
      simp only [projVec, Option.some.injEq, Prod.mk.injEq] at h
      obtain ⟨rfl, rfl⟩ := h
      exact hs.len
    | _ => simp [projVec] at h
  | c :: c' :: p, t, a, l, b, hs, h => by
    cases t with
    | struct fs sz al =>
      simp only [projVec] at h
      split at h
      · rename_i o t hf
        exact projVec_sits (c' :: p) t (a + o) l b (hs.field (mem_find hf)) h
      · cases h
    | _ => simp [projVec] at h

theorem aTermCond_eq {A : Chk} {S : Mem} {t : Ty} {a : Nat} (h : A.src = true → Sits t a) : ∀ as : List Attr,
    aTermCond A S t a as = termCond S t a as
  | [] => rfl
  | .undef d :: r => by simp only [aTermCond, termCond, aTermCond_eq h r]
  | .split inl n p :: r => by
    simp only [aTermCond, termCond]
    cases hp : projVec t a p with
    | none => rfl
    | some x =>
      obtain ⟨l, b⟩ := x
      simp only
      rw [aLengthOp_eq fun hs => projVec_sits p t a l b (h hs) hp, aTermCond_eq h r]
      cases lengthOp S l b <;> rfl

theorem aSelectTerm_eq {A : Chk} {S : Mem} {ts : Terms} {l : VarL} {path : Path} {a : Nat}
    (h : A.src = true → natAlign l.tagW ∣ a + l.tagOff) : aSelectTerm A S ts l path a = selectTerm S ts l path a := by
  unfold aSelectTerm
  split
  · rfl
  · split
    · rfl
    · exact Chk.loadOpt_eq h

/-! ## Vectors -/

theorem canOut_src {S : Mem} {l : VecL} {a n : Nat} (h : lengthOp S l a = some n) (hi : l.isInl n = false) : l.canOut := by
  rw [isInl_false] at hi
  by_cases h0 : l.minLen = 0
  · exact .inl h0
  · refine .inr fun hm => ?_
    have := lengthOp_max h hm
    omega

theorem aVector_eq {A : Chk} {E : Env} {f g : Nat → Nat → St → Res} {de se : Ty} {dl sl : VecL} {sa da : Nat} {st : St}
    (hdl : VecLayout dl de.size de.align) (hsl : VecLayout sl se.size se.align)
    (hs : A.src = true → Sits (.vector se sl) sa ∧ Ptrs E.S (.vector se sl) [] sa)
    (hd : A.dst = true → Sits (.vector de dl) da)
    (hf : ∀ s d, (A.src = true → Sits se s ∧ Ptrs E.S se [] s) → (A.dst = true → Sits de d) → ∀ st, f s d st = g s d st) :
    aVector A E f de.size de.align dl sl sa da st = xVector E g de.size de.align dl sl sa da st := by
  unfold aVector xVector
  rw [aLengthOp_eq fun h => (hs h).1.len]
  cases hn : lengthOp E.S sl sa with
  | none => rfl
  | some n =>
    simp only
    have hn64 := lengthOp_lt hsl hn
    have hcp := copyLength_le_self dl n
    have hdm := hdl.min
    have hsm := hsl.min
    have hdp := hdl.ppl
    have hsp := hsl.ppl
    unfold aStoreLength
    rw [Chk.store_eq fun h => (hd h).len]
    refine bind_congr fun st0 _ => ?_
    by_cases hi : sl.isInl n = true
    · rw [if_pos hi, if_pos hi]
      have hi' := isInl_true.1 hi
      have hsrc : ∀ i, i < n → A.src = true → Sits se (elemAt (sa + sl.inlOff) sl.elemW i) ∧
          Ptrs E.S se [] (elemAt (sa + sl.inlOff) sl.elemW i) := fun i hin h =>
        ⟨(hs h).1.inl hi'.1, ((hs h).2 n hn).1 hi i hin⟩
      unfold aInlineVec xInlineVec
      split
      · rfl
      · split
        · rename_i hdi
          refine copyLoop_congr _ (loopCount_le _) fun i hi s => hf _ _ ?_ ?_ s
          · exact fun h => hsrc _ (by omega) h
          · exact fun h => (hd h).inl (isInl_true.1 hdi).1
        · rename_i hdi
          have hout := canOut_of (Bool.not_eq_true _ ▸ hdi)
          have hdi' := isInl_false.1 (Bool.not_eq_true _ ▸ hdi)
          refine bind_congr fun sta hsta => ?_
          have hal := alignTo_dvd hsta
          unfold aStoreRef
          rw [Chk.store_eq fun h => (hd h).ref hout]
          refine bind_congr fun st1 _ => bind_congr fun st2 _ => ?_
          have hlc := loopCount_sub_le (a := copyLength dl n) (b := dl.ppl) (by omega) (by omega)
          rw [copyLoop_congr (f := f) (g := g) (n := dl.ppl) _ (loopCount_le _) fun i hi s => hf _ _
            (fun h => hsrc _ (by omega) h) (fun h => (hd h).par (by omega) hdp) s]
          refine bind_congr fun st3 _ => ?_
          exact copyLoop_congr _ hlc fun i hi s => hf _ _
            (fun h => hsrc _ (by omega) h) (fun h => (hd h).at hal) s
    · have hi0 : sl.isInl n = false := by simpa using hi
      rw [if_neg hi, if_neg hi]
      have hi' := isInl_false.1 hi0
      have hsout := canOut_src hn hi0
      have hpar : ∀ i, i < sl.ppl → A.src = true → Sits se (elemAt (sa + sl.parOff) sl.elemW i) ∧
          Ptrs E.S se [] (elemAt (sa + sl.parOff) sl.elemW i) := fun i hin h =>
        ⟨(hs h).1.par (by omega) hsp, (((hs h).2 n hn).2 hi0).1 i hin⟩
      have href : ∀ i, i < n - sl.ppl → A.src = true → Sits se (elemAt (refStart E.S sl sa) sl.elemW i) ∧
          Ptrs E.S se [] (elemAt (refStart E.S sl sa) sl.elemW i) := fun i hin h =>
        ⟨(hs h).1.at ((((hs h).2 n hn).2 hi0).2.1 (by omega)), (((hs h).2 n hn).2 hi0).2.2 i hin⟩
      have hvia : ∀ s d st, viaRef A sl sa f s d st = f s d st := fun s d st =>
        Chk.load_eq fun h => (hs h).1.ref hsout
      have hvia' : viaRef A sl sa f = f := funext fun s => funext fun d => funext fun st => hvia s d st
      unfold aOutlineVec xOutlineVec
      rw [hvia']
      split
      · rfl
      · split
        · rename_i hdi
          have hdi' := isInl_true.1 hdi
          simp only
          rw [copyLoop_congr (f := f) (g := g) (n := min sl.ppl dl.maxBound) _ (loopCount_le _) fun i hi s => hf _ _
            (fun h => hpar _ (by omega) h) (fun h => (hd h).inl hdi'.1) s]
          refine bind_congr fun st1 _ => ?_
          have hmb : copyLength dl n ≤ dl.maxBound ∨ dl.maxBound = 2 ^ 63 - 1 := by
            unfold copyLength VecL.maxBound
            cases dl.maxLen with
            | none => exact .inr rfl
            | some m => simp only; left; split <;> omega
          have hlc := loopCount_sub_le (a := copyLength dl n) (b := min sl.ppl dl.maxBound) (by omega) (by omega)
          exact copyLoop_congr _ hlc fun i hi s => hf _ _
            (fun h => href _ (by omega) h) (fun h => (hd h).inl hdi'.1) s
        · rename_i hdi
          have hout := canOut_of (Bool.not_eq_true _ ▸ hdi)
          have hdi' := isInl_false.1 (Bool.not_eq_true _ ▸ hdi)
          refine bind_congr fun sta hsta => ?_
          have hal := alignTo_dvd hsta
          unfold aStoreRef
          rw [Chk.store_eq fun h => (hd h).ref hout]
          refine bind_congr fun st1 _ => bind_congr fun st2 _ => ?_
          have hlc := loopCount_sub_le (a := copyLength dl n) (b := dl.ppl) (by omega) (by omega)
          have hlc' := loopCount_sub_le (a := copyLength dl n) (b := sl.ppl) (by omega) (by omega)
          split
          · rw [copyLoop_congr (f := f) (g := g) (n := sl.ppl) _ (loopCount_le _) fun i hi s => hf _ _
              (fun h => hpar _ (by omega) h) (fun h => (hd h).par (by omega) hdp) s]
            refine bind_congr fun st3 _ => ?_
            rw [copyLoop_congr (f := f) (g := g) (n := dl.ppl - sl.ppl) _ (loopCount_le _) fun i hi s => hf _ _
              (fun h => href _ (by omega) h) (fun h => (hd h).par (by omega) hdp) s]
            refine bind_congr fun st4 _ => ?_
            exact copyLoop_congr _ hlc fun i hi s => hf _ _
              (fun h => href _ (by omega) h) (fun h => (hd h).at hal) s
          · rw [copyLoop_congr (f := f) (g := g) (n := dl.ppl) _ (loopCount_le _) fun i hi s => hf _ _
              (fun h => hpar _ (by omega) h) (fun h => (hd h).par (by omega) hdp) s]
            refine bind_congr fun st3 _ => ?_
            rw [copyLoop_congr (f := f) (g := g) (n := sl.ppl - dl.ppl) _ (loopCount_le _) fun i hi s => hf _ _
              (fun h => hpar _ (by omega) h) (fun h => (hd h).at hal) s]
            refine bind_congr fun st4 _ => ?_
            exact copyLoop_congr _ hlc' fun i hi s => hf _ _
              (fun h => href _ (by omega) h) (fun h => (hd h).at hal) s

/-! ## Defaults -/

mutual
theorem aDflt_eq {A : Chk} {E : Env} : ∀ (t : Ty) (hs : Handlers) (da : Nat) (st : St), (A.dst = true → Sits t da) →
    aDflt A E t hs da st = dflt E t hs da st
  | .int w s al, hs, da, st, h => by
    simp only [aDflt]; exact Chk.store_eq fun hd => (h hd).2
  | .float w al, hs, da, st, h => by
    simp only [aDflt]; exact Chk.store_eq fun hd => (h hd).2
  | .unit, _, _, st, _ => by simp only [aDflt, dflt]
  | .struct fs sz al, hs, da, st, h => by
    simp only [aDflt, dflt]
    rw [aDfltFields_eq fs true hs da _ fun hd x hx => (h hd).field hx]
    exact bind_congr fun s _ => aDfltFields_eq fs false hs da s fun hd x hx => (h hd).field hx
  | .variant ts l, hs, da, st, h => by
    simp only [aDflt, dflt]
    cases handlerMap hs with
    | none => rfl
    | some hm => exact aDfltAt_eq ts l l.dflt hm da st (fun hd => (h hd).tag) fun hd x hx => (h hd).term hx
  | .array e n esz al, hs, da, st, h => by
    simp only [aDflt, dflt]
    refine loop_congr n 0 st fun j _ hj s => ?_
    rw [aDflt_eq e [] _ s fun hd => (h hd).elem (by omega)]
  | .vector e l, hs, da, st, h => by
    simp only [aDflt, dflt]; exact Chk.store_eq fun hd => (h hd).len
theorem aDfltFields_eq {A : Chk} {E : Env} : ∀ (fs : Fields) (out : Bool) (hs : Handlers) (da : Nat) (st : St),
    (A.dst = true → ∀ x ∈ fs.toList, Sits x.2.2 (da + x.2.1)) → aDfltFields A E fs out hs da st = dfltFields E fs out hs da st
  | .nil, _, _, _, _, _ => by simp only [aDfltFields, dfltFields]
  | .cons c off t r, out, hs, da, st, h => by
    simp only [aDfltFields, dfltFields]
    rw [aDflt_eq t _ (da + off) st fun hd => h hd (c, off, t) (by simp [Fields.toList])]
    exact bind_congr fun s _ => aDfltFields_eq r out hs da s fun hd x hx => h hd x (by simp [Fields.toList, hx])
theorem aDfltAt_eq {A : Chk} {E : Env} : ∀ (ts : Terms) (l : VarL) (i : Nat) (hm : List (Comp × Nat)) (da : Nat) (st : St),
    (A.dst = true → natAlign l.tagW ∣ da + l.tagOff) → (A.dst = true → ∀ x ∈ ts.toList, Sits x.ty (da + l.termOff)) →
    aDfltAt A E ts l i hm da st = dfltAt E ts l i hm da st
  | .nil, _, _, _, _, _, _, _ => by simp only [aDfltAt, dfltAt]
  | .cons n g as t r, l, 0, hm, da, st, hg, h => by
    simp only [aDfltAt, dfltAt]
    unfold aBeginTerm
    rw [Chk.store_eq hg]
    congr 1
    cases unitCond as with
    | none => rfl
    | some b =>
      cases b with
      | false => rfl
      | true =>
        refine bind_congr fun s _ => ?_
        rw [aDflt_eq t [] (da + l.termOff) s fun hd => h hd ⟨n, g, as, t⟩ (by simp [Terms.toList])]
  | .cons n g as t r, l, i + 1, hm, da, st, hg, h => by
    simp only [aDfltAt, dfltAt]
    exact aDfltAt_eq r l i hm da st hg fun hd x hx => h hd x (by simp [Terms.toList, hx])
end

/-! ## Transcoding -/

mutual
theorem aXcode_eq {A : Chk} {E : Env} : ∀ (t src : Ty) (path : Path) (hs : Handlers) (sa da : Nat) (st : St), WF t → WF src →
    (A.src = true → Sits src sa ∧ Ptrs E.S src path sa) → (A.dst = true → Sits t da) →
    aXcode A E t src path hs sa da st = xcode E t src path hs sa da st
  | .unit, _, _, _, _, _, st, _, _, _, _ => by simp only [aXcode, xcode]
  | .int dw ds dal, src, path, hs, sa, da, st, _, _, hsrc, hd => by
    cases src with
    | unit => simp only [aXcode, xcode]; rw [aDflt_eq _ _ _ _ hd]
    | int sw ss sal =>
      simp only [aXcode]
      exact (Chk.load_eq fun h => (hsrc h).1.2).trans (Chk.store_eq fun h => (hd h).2)
    | _ => simp only [aXcode, xcode]
  | .float dw dal, src, path, hs, sa, da, st, _, _, hsrc, hd => by
    cases src with
    | unit => simp only [aXcode, xcode]; rw [aDflt_eq _ _ _ _ hd]
    | float sw sal =>
      simp only [aXcode]
      exact (Chk.load_eq fun h => (hsrc h).1.2).trans (Chk.store_eq fun h => (hd h).2)
    | _ => simp only [aXcode, xcode]
  | .struct dfs dsz dal, src, path, hs, sa, da, st, hw, hws, hsrc, hd => by
    cases src with
    | unit => simp only [aXcode, xcode]; rw [aDflt_eq _ _ _ _ hd]
    | struct sfs ssz sal =>
      simp only [aXcode, xcode]
      rw [aXFields_eq dfs true sfs path hs sa da _ hw.1 hws.1
        (fun h x hx => ⟨(hsrc h).1.field hx, PtrsFields_mem (hsrc h).2 x hx⟩) fun h x hx => (hd h).field hx]
      exact bind_congr fun s _ => aXFields_eq dfs false sfs path hs sa da s hw.1 hws.1
        (fun h x hx => ⟨(hsrc h).1.field hx, PtrsFields_mem (hsrc h).2 x hx⟩) fun h x hx => (hd h).field hx
    | _ => simp only [aXcode, xcode]
  | .variant dts dl, src, path, hs, sa, da, st, hw, hws, hsrc, hd => by
    cases src with
    | unit => simp only [aXcode, xcode]; rw [aDflt_eq _ _ _ _ hd]
    | variant sts sl =>
      simp only [aXcode, xcode]
      split
      · unfold aEnum
        rw [Chk.load_eq fun h => (hsrc h).1.tag, Chk.store_eq fun h => (hd h).tag]
      · cases handlerMap hs with
        | none => rfl
        | some hm =>
          simp only
          rw [aSelectTerm_eq fun h => (hsrc h).1.tag]
          cases hsel : selectTerm E.S sts sl path sa with
          | none => rfl
          | some o =>
            cases o with
            | none =>
              simp only
              exact aXAt_eq dts dl dl.dflt .unit hm _ da st hw.1 trivial (fun h => ⟨⟨trivial, Nat.one_dvd _⟩, trivial⟩)
                (fun h => (hd h).tag) fun h x hx => (hd h).term hx
            | some x =>
              have hx := selectTerm_mem hsel
              have hwx := WFTerms_iff.1 hws.1 x hx
              have hsx : A.src = true → Sits x.ty (sa + sl.termOff) ∧ Ptrs E.S x.ty [] (sa + sl.termOff) := fun h =>
                ⟨(hsrc h).1.term hx, PtrsTerms_mem ((hsrc h).2 x hsel) hx⟩
              simp only
              split
              · rw [aXNamed_eq dts dl x.name x.ty _ da st hw.1 hwx hsx (fun h => (hd h).tag) fun h y hy => (hd h).term hy]
              · exact aXAt_eq dts dl dl.dflt x.ty hm _ da st hw.1 hwx hsx (fun h => (hd h).tag) fun h y hy => (hd h).term hy
    | _ => simp only [aXcode, xcode]
  | .array de dn desz dal, src, path, hs, sa, da, st, hw, hws, hsrc, hd => by
    cases src with
    | unit => simp only [aXcode, xcode]; rw [aDflt_eq _ _ _ _ hd]
    | array se sn sesz sal =>
      simp only [aXcode, xcode]
      rw [loop_congr (f := fun i => aXcode A E de se [] [] (elemAt sa sesz i) (elemAt da desz i))
        (g := fun i => xcode E de se [] [] (elemAt sa sesz i) (elemAt da desz i)) (min sn dn) 0 st fun j _ hj s =>
        aXcode_eq de se [] [] _ _ s hw.1 hws.1 (fun h => ⟨(hsrc h).1.elem (by omega), (hsrc h).2 j (by omega)⟩)
          fun h => (hd h).elem (by omega)]
      refine bind_congr fun s _ => loop_congr _ _ _ fun j _ hj s => ?_
      rw [aDflt_eq de [] _ s fun h => (hd h).elem (by omega)]
    | _ => simp only [aXcode, xcode]
  | .vector de dl, src, path, hs, sa, da, st, hw, hws, hsrc, hd => by
    cases src with
    | unit => simp only [aXcode, xcode]; rw [aDflt_eq _ _ _ _ hd]
    | vector se sl =>
      simp only [aXcode, xcode]
      exact aVector_eq hw.2 hws.2 hsrc hd fun s d hs' hd' st => aXcode_eq de se [] [] s d st hw.1 hws.1 hs' hd'
    | _ => simp only [aXcode, xcode]
theorem aXFields_eq {A : Chk} {E : Env} : ∀ (fs : Fields) (out : Bool) (sfs : Fields) (path : Path) (hs : Handlers)
    (sa da : Nat) (st : St), WFFields fs → WFFields sfs →
    (A.src = true → ∀ x ∈ sfs.toList, Sits x.2.2 (sa + x.2.1) ∧ Ptrs E.S x.2.2 (path.into x.1) (sa + x.2.1)) →
    (A.dst = true → ∀ x ∈ fs.toList, Sits x.2.2 (da + x.2.1)) →
    aXFields A E fs out sfs path hs sa da st = xFields E fs out sfs path hs sa da st
  | .nil, _, _, _, _, _, _, _, _, _, _, _ => by simp only [aXFields, xFields]
  | .cons c off t r, out, sfs, path, hs, sa, da, st, hw, hws, hsrc, hd => by
    simp only [aXFields, xFields]
    refine bind_congr2 ?_ fun s => aXFields_eq r out sfs path hs sa da s hw.2 hws hsrc fun h x hx => hd h x (by simp [Fields.toList, hx])
    · have hdt : A.dst = true → Sits t (da + off) := fun h => hd h (c, off, t) (by simp [Fields.toList])
      split
      · cases hf : sfs.findLast c with
        | none => simp only; rw [aDflt_eq t _ _ st hdt]
        | some x =>
          obtain ⟨so, sty⟩ := x
          simp only
          have hm := mem_findLast hf
          exact aXcode_eq t sty _ _ _ _ st hw.1 (WFFields_iff.1 hws _ hm) (fun h => hsrc h _ hm) hdt
      · rfl
theorem aXNamed_eq {A : Chk} {E : Env} : ∀ (ts : Terms) (l : VarL) (c : Comp) (sty : Ty) (sa da : Nat) (st : St),
    WFTerms ts → WF sty → (A.src = true → Sits sty sa ∧ Ptrs E.S sty [] sa) →
    (A.dst = true → natAlign l.tagW ∣ da + l.tagOff) → (A.dst = true → ∀ x ∈ ts.toList, Sits x.ty (da + l.termOff)) →
    aXNamed A E ts l c sty sa da st = xNamed E ts l c sty sa da st
  | .nil, _, _, _, _, _, _, _, _, _, _, _ => by simp only [aXNamed, xNamed]
  | .cons n g as t r, l, c, sty, sa, da, st, hw, hws, hsrc, hg, hd => by
    simp only [aXNamed, xNamed]
    have hr := aXNamed_eq (A := A) (E := E) r l c sty sa da st hw.2 hws hsrc hg fun h x hx => hd h x (by simp [Terms.toList, hx])
    rw [aTermCond_eq fun h => (hsrc h).1, hr]
    unfold aBeginTerm
    rw [Chk.store_eq hg]
    split
    · cases termCond E.S sty sa as with
      | none => rfl
      | some b =>
        cases b with
        | false => rfl
        | true =>
          exact bind_congr fun s _ => aXcode_eq t sty [] [] sa _ s hw.1 hws hsrc fun h =>
            hd h ⟨n, g, as, t⟩ (by simp [Terms.toList])
    · rfl
theorem aXAt_eq {A : Chk} {E : Env} : ∀ (ts : Terms) (l : VarL) (i : Nat) (sty : Ty) (hm : List (Comp × Nat)) (sa da : Nat)
    (st : St), WFTerms ts → WF sty → (A.src = true → Sits sty sa ∧ Ptrs E.S sty [] sa) →
    (A.dst = true → natAlign l.tagW ∣ da + l.tagOff) → (A.dst = true → ∀ x ∈ ts.toList, Sits x.ty (da + l.termOff)) →
    aXAt A E ts l i sty hm sa da st = xAt E ts l i sty hm sa da st
  | .nil, _, _, _, _, _, _, _, _, _, _, _, _ => by simp only [aXAt, xAt]
  | .cons n g as t r, l, 0, sty, hm, sa, da, st, hw, hws, hsrc, hg, hd => by
    simp only [aXAt, xAt]
    rw [aTermCond_eq fun h => (hsrc h).1]
    unfold aBeginTerm
    rw [Chk.store_eq hg]
    congr 1
    cases termCond E.S sty sa as with
    | none => rfl
    | some b =>
      cases b with
      | false => rfl
      | true =>
        exact bind_congr fun s _ => aXcode_eq t sty [] [] sa _ s hw.1 hws hsrc fun h =>
          hd h ⟨n, g, as, t⟩ (by simp [Terms.toList])
  | .cons n g as t r, l, i + 1, sty, hm, sa, da, st, hw, hws, hsrc, hg, hd => by
    simp only [aXAt, xAt]
    exact aXAt_eq r l i sty hm sa da st hw.2 hws hsrc hg fun h x hx => hd h x (by simp [Terms.toList, hx])
end

end PJ
