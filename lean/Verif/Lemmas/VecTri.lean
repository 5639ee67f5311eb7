import Verif.Lemmas.Good
import Verif.Props.C41_Align
/-!
# Vectors
-/
namespace PJ

def Asrt.ex (G : Nat → Asrt) : Asrt :=
  ⟨fun lo hi R m => ∃ p, (G p).P lo hi R m, fun ⟨p, h⟩ hR hm => ⟨p, (G p).loc h hR hm⟩⟩

def Asrt.pure (p : Nat → Nat → Prop) : Asrt := ⟨fun lo hi _ _ => p lo hi, fun h _ _ => h⟩

/-- The bytes of the elements `b ≤ i < c`. -/
def HV (D : Nat → Nat) (esz b c : Nat) (a : Nat) : Prop := ∃ i, b ≤ i ∧ i < c ∧ Head (D i) esz a

/-- Different elements are in different places. -/
def Apart (D : Nat → Nat) (esz n : Nat) : Prop :=
  ∀ i j, i < j → j < n → ∀ a, Head (D i) esz a → ¬ Head (D j) esz a

def elemsA (e : Ty) (D : Nat → Nat) (W : Nat → Val) (n b c : Nat) : Asrt :=
  Asrt.imp (fun _ _ => Apart D e.size n) (Asrt.all b c fun i => Asrt.good e (D i) (W i))

theorem seg_tri {f : Nat → Nat → St → Res} {e : Ty} {D sA : Nat → Nat} {W : Nat → Val} {copy : Nat}
    (hf : ∀ i, i < copy → ∀ d s, Tri s (Head d e.size) (.good e d (W i)) (f (sA i) d s))
    (b n ss sw si ds dw di : Nat) (st : St) (hb : b + n ≤ copy) (hn : n < 2 ^ 63)
    (hs : ∀ j, j < n → elemAt ss sw (si + j) = sA (b + j))
    (hd : ∀ j, j < n → elemAt ds dw (di + j) = D (b + j)) :
    Tri st (HV D e.size b (b + n)) (elemsA e D W copy b (b + n))
      (copyLoop f ss sw si ds dw di n st) := by
  unfold copyLoop
  rw [loopCount_eq hn]
  refine (Tri.loop (Hj := fun j => Head (D (b + j)) e.size)
    (G := fun j => .good e (D (b + j)) (W (b + j))) n 0 st fun j s _ hj => ?_).conseq ?_ ?_
  · rw [hs j (by omega), hd j (by omega)]
    exact hf (b + j) (by omega) _ s
  · rintro a ⟨j, h1, h2, ha⟩; exact ⟨b + j, by omega, by omega, ha⟩
  · intro lo hi R m _ _ _ hP hap i h1 h2
    have := hP (fun j j' _ h2 h3 a ha => hap (b + j) (b + j') (by omega) (by omega) a ha)
      (i - b) (by omega) (by omega)
    simp only [show b + (i - b) = i by omega] at this
    exact this

theorem chain_tri {e : Ty} {D : Nat → Nat} {W : Nat → Val} {copy b c d : Nat} {st : St} {r : Res}
    {f : St → Res} (h1 : Tri st (HV D e.size b c) (elemsA e D W copy b c) r)
    (h2 : ∀ s, Tri s (HV D e.size c d) (elemsA e D W copy c d) (f s)) (hbc : b ≤ c) (hcd : c ≤ d)
    (hd : d ≤ copy) : Tri st (HV D e.size b d) (elemsA e D W copy b d) (r.bind f) := by
  refine (Tri.seq (H := HV D e.size b d) h1 (fun s _ => h2 s) ?_ ?_).weaken ?_
  · rintro a ⟨i, h1, h2, ha⟩; exact ⟨i, by omega, by omega, ha⟩
  · rintro a ⟨i, h1, h2, ha⟩; exact ⟨i, by omega, by omega, ha⟩
  · intro lo hi R m hP hap i hi1 hi2
    obtain ⟨hP1, hP2⟩ := hP (by
      rintro a ⟨i, _, h2, ha⟩ ⟨j, h3, h4, hb⟩
      exact hap i j (by omega) (by omega) a ha hb)
    by_cases hic : i < c
    · exact hP1 hap i hi1 hic
    · exact hP2 hap i (by omega) hi2

/-- Element addresses in the outlined representation with payload at `p`. -/
def outD (l : VecL) (da p i : Nat) : Nat :=
  if i < l.ppl then elemAt (da + l.parOff) l.elemW i else elemAt p l.elemW (i - l.ppl)

/-- The number stored as reference. -/
def refVal (l : VecL) (da p : Nat) : Nat :=
  match l.mode with
  | .pointer => p
  | .offset => sub64 p (da + l.refOff)

/-- What `AlignOp` leaves is aligned, wherever the buffer was. -/
theorem alignTo_dvd {st s : St} {al : Nat} (h : alignTo st al = .ok s) : al ∣ s.ptr := by
  unfold alignTo at h
  split at h
  · rename_i h1; subst h1; exact Nat.one_dvd _
  · split at h
    · rename_i h1 h2
      have hp : s.ptr = (st.ptr + alignDiff st.ptr al) % W64 := by
        unfold alloc at h
        split at h
        · cases h; rfl
        · split at h
          · cases h
          · cases h; rfl
      rw [hp]
      have hex : ∃ k, k ≤ 3 ∧ al = 2 ^ k := by
        rcases h2 with rfl | rfl | rfl
        · exact ⟨1, by omega, rfl⟩
        · exact ⟨2, by omega, rfl⟩
        · exact ⟨3, by omega, rfl⟩
      obtain ⟨k, hk, rfl⟩ := hex
      unfold alignDiff
      rw [if_neg h1]
      simp only [or_two_pow_sub_one]
      have hk3 : k = 0 ∨ k = 1 ∨ k = 2 ∨ k = 3 := by omega
      unfold sub64 add64 W64
      apply Nat.dvd_of_mod_eq_zero
      rcases hk3 with rfl | rfl | rfl | rfl <;> simp only [Nat.reducePow] <;> omega
    · cases h

/-- An outlined vector without its length. -/
def outA (e : Ty) (l : VecL) (da : Nat) (W : Nat → Val) (copy : Nat) : Asrt :=
  Asrt.ex fun p => (Asrt.pure fun lo hi => (lo ≤ p ∧ p + l.elemW * (copy - l.ppl) ≤ hi ∧ hi < W64) ∧ e.align ∣ p).and
    ((Asrt.word (da + l.refOff) 8 (refVal l da p)).and
      (Asrt.all 0 copy fun i => Asrt.good e (outD l da p i) (W i)))

theorem Post.alignTo (st : St) (al : Nat) (h : al = 1 ∨ al = 2 ∨ al = 4 ∨ al = 8) :
    Post (fun _ => True) (alignTo st al) := by
  unfold PJ.alignTo
  split
  · trivial
  · rw [if_pos (by omega)]; exact Post.alloc _ _

theorem alignTo_ptr {st s : St} {al : Nat} (h : alignTo st al = .ok s) (hp : st.ptr < W64) :
    s.ptr < W64 := by
  unfold PJ.alignTo at h
  split at h
  · cases h; exact hp
  · split at h
    · rw [(alloc_ok h).2.2.1]; exact Nat.mod_lt _ (by decide)
    · cases h

theorem refVal_lt (l : VecL) (da : Nat) {p : Nat} (h : p < W64) : refVal l da p < 256 ^ 8 := by
  unfold refVal; split
  · exact h
  · exact sub64_lt _ _

theorem out_tri {e : Ty} {dl : VecL} {da copy : Nat} {W : Nat → Val} {st : St}
    (hl : VecLayout dl e.size e.align) (hco : dl.canOut) (hcp : dl.ppl ≤ copy) (hcW : copy < W64)
    (K : Nat → St → Res)
    (hK : ∀ p s, Tri s (HV (outD dl da p) e.size 0 copy) (elemsA e (outD dl da p) W copy 0 copy)
      (K p s)) :
    Tri st (fun a => Head (da + dl.refOff) 8 a ∨ Head (da + dl.parOff) (dl.ppl * dl.elemW) a)
      (outA e dl da W copy)
      ((alignTo st e.align).bind fun sta => (storeRef dl da sta).bind fun st1 =>
        (alloc st1 (dl.elemW * sub64 copy dl.ppl)).bind fun st2 => K sta.ptr st2) := by
  obtain ⟨h8, hrin, hrlen⟩ := hl.ref hco
  have hst := hl.stride
  have hsub := sub64_eq hcp hcW
  have hpar := hl.par hco
  refine Tri.pre (FrmRes.alignTo _ _ _) (Post.alignTo _ _ hl.align) fun sta hsta => ?_
  have hsr : storeRef dl da sta = .ok (sta.store (da + dl.refOff) 8 (refVal dl da sta.ptr)) := by
    unfold storeRef refVal
    cases hm : dl.mode
    · simp only [if_pos h8]
    · simp [h8]
  rw [hsr]
  refine (Tri.seq (H := fun a => Head (da + dl.refOff) 8 a ∨ Head (da + dl.parOff) (dl.ppl * dl.elemW) a)
    (H2 := Head (da + dl.parOff) (dl.ppl * dl.elemW))
    (G2 := (Asrt.pure fun lo hi => lo ≤ sta.ptr ∧ sta.ptr + dl.elemW * (copy - dl.ppl) ≤ hi ∧ hi < W64).and
      (Asrt.all 0 copy fun i => Asrt.good e (outD dl da sta.ptr i) (W i)))
    (Tri.store _ _ _ _) (fun s1 hs1 => ?_) (fun a h => Or.inl h) (fun a h => Or.inr h)).conseq
    (fun _ h => h) ?_
  · cases hs1
    have hptr : (sta.store (da + dl.refOff) 8 (refVal dl da sta.ptr)).ptr = sta.ptr := rfl
    refine Tri.allocd fun s2 hs2 => ?_
    rw [hptr, hsub]
    refine (hK sta.ptr s2).conseq ?_ ?_
    · rintro a ⟨i, _, h2, ha⟩
      unfold outD at ha
      split at ha
      · rename_i hi
        exact Or.inl (elem_in hi hst ha)
      · rename_i hi
        have := elem_in (n := copy - dl.ppl) (by omega) hst ha
        right; rw [Nat.mul_comm]; exact this
    · intro lo hi R m _ _ _ hP hcond
      obtain ⟨c1, c2, c3, c4⟩ := hcond
      refine ⟨⟨c1, c2, c3⟩, fun i h1 h2 => hP ?_ i h1 h2⟩
      intro i j hij hj a ha hb
      unfold outD at ha hb
      split at ha
      · rename_i hi
        split at hb
        · exact elem_disj hst hij ha hb
        · rename_i hj'
          have ha := elem_in hi hst ha
          have hb := elem_in (n := copy - dl.ppl) (by omega) hst hb
          rw [Nat.mul_comm] at hb
          exact c4 a ha hb
      · rename_i hi
        rw [if_neg (by omega)] at hb
        exact elem_disj hst (by omega) ha hb
  · intro lo hi R m h1 h2 h3 hP
    obtain ⟨hP1, hP2, hP3⟩ := hP (by
      intro a ha hb
      by_cases h0 : dl.ppl = 0
      · rw [h0] at hb; unfold Head at hb; omega
      · have := (hpar h0).2.2
        unfold Disj at this; unfold Head at *; omega)
    rw [Nat.mod_eq_of_lt (refVal_lt _ _ (by have := hP2.1; omega))] at hP1
    exact ⟨sta.ptr, ⟨hP2, alignTo_dvd hsta⟩, hP1, hP3⟩

theorem sext8 (n : Nat) : sext 8 8 n = n := by unfold sext; split <;> omega

/-- Reading the reference gives the payload address, also after moving. -/
theorem refStart_good {l : VecL} {m2 : Mem} {da p : Nat} {k : Int} (h8 : l.refSize = 8)
    (hda : 0 ≤ (da : Int) + k) (hdaW : (da : Int) + k < W64) (hp : 0 ≤ (p : Int) + k)
    (hpW : (p : Int) + k < W64) (hk : k ≠ 0 → l.mode = .offset) 
    (hr : readN m2 (((da : Int) + k).toNat + l.refOff) 8 = refVal l da p) :
    refStart m2 l ((da : Int) + k).toNat = ((p : Int) + k).toNat := by
  unfold refStart
  rw [h8, hr, sext8]
  unfold refVal
  cases hm : l.mode with
  | pointer =>
    simp only
    have : k = 0 := Classical.byContradiction fun h => by rw [hk h] at hm; cases hm
    subst this; simp
  | offset =>
    simp only
    unfold sub64 W64 at *
    omega

theorem good_vec {e : Ty} {l : VecL} {da copy : Nat} {ws : List Val} (D : Nat → Nat)
    (hl : VecLayout l e.size e.align) (hw : ws.length = copy) (hc63 : copy < 2 ^ 63)
    (hmax : ∀ m, l.maxLen = some m → copy ≤ m) (lo hi : Nat) (R : Nat → Prop) (m : Mem)
    (hlen : (Asrt.word (da + l.lenOff) l.lenSize copy).P lo hi R m)
    (hb : lo ≤ da → da + l.size ≤ hi → ∀ i, i < copy → lo ≤ D i ∧ D i + e.size ≤ hi)
    (hg : ∀ i w, ws[i]? = some w → (Asrt.good e (D i) w).P lo hi R m)
    (haddr : lo ≤ da → da + l.size ≤ hi → ∀ (m2 : Mem) (k : Int), (k ≠ 0 → l.mode = .offset) →
      0 ≤ (lo : Int) + k → (hi : Int) + k < W64 →
      (∀ a : Nat, R a → m2 ((a : Int) + k).toNat = m a) → ∀ i, i < copy →
      vecElemAddr m2 l ((da : Int) + k).toNat copy i = ((D i : Int) + k).toNat)
    (hal : l.isInl copy = false → l.ppl < copy → lo ≤ da → da + l.size ≤ hi → hi < W64 → ∀ m2 : Mem,
      (∀ a : Nat, R a → m2 a = m a) → e.align ∣ refStart m2 l da) :
    (Asrt.good (.vector e l) da (.vec ws)).P lo hi R m := by
  intro h1 h2 m2 k hk h4 h5 h6
  simp only [Ty.size] at h2
  simp only [Ty.reloc] at hk
  have hr := reloc_read h1 h4 h6 hlen
  have hs := hl.lenSize
  have hlop : lengthOp m2 l ((da : Int) + k).toNat = some copy := by
    unfold lengthOp
    rw [hr]
    split
    · rw [if_neg (by omega)]
    · rename_i mm hm
      have := hl.max mm hm
      rw [if_neg (by omega), if_neg (by omega), if_pos (hmax mm hm)]
  simp only [readVal, hlop, hc63, if_true]
  have hppl := hl.ppl
  have key : ∀ j (hj : j < copy), readVal m2 e (vecElemAddr m2 l ((da : Int) + k).toNat copy j) = ws[j]? ∧
      (k = 0 → Ptrs m2 e [] (vecElemAddr m2 l ((da : Int) + k).toNat copy j)) := ?_
  · rw [collect_of hw fun j hj => by rw [Nat.zero_add]; exact (key j hj).1]
    refine ⟨rfl, fun h0 n hn => ?_⟩
    rw [hlop] at hn
    cases hn
    refine ⟨fun hi i hlt => ?_, fun ho => ?_⟩
    · have := (key i hlt).2 h0
      unfold vecElemAddr at this
      rw [if_pos hi] at this
      exact this
    · have ho' := isInl_false.1 ho
      refine ⟨fun i hlt => ?_, fun hlt => ?_, fun i hlt => ?_⟩
      · have := (key i (by omega)).2 h0
        unfold vecElemAddr at this
        rw [ho, if_neg (by simp), if_pos hlt] at this
        exact this
      · subst h0
        have := hal ho hlt h1 h2 (by omega) m2 fun a ha => by simpa using h6 a ha
        simpa using this
      · have := (key (i + l.ppl) (by omega)).2 h0
        unfold vecElemAddr at this
        rw [ho, if_neg (by simp), if_neg (by omega), Nat.add_sub_cancel] at this
        exact this
  intro j hj
  have hwj : ws[j]? = some ws[j] := List.getElem?_eq_getElem (by omega)
  rw [haddr h1 h2 m2 k (fun h => (hk h).2) h4 h5 h6 j hj, hwj]
  obtain ⟨hb1, hb2⟩ := hb h1 h2 j hj
  exact hg j _ hwj hb1 hb2 m2 k (fun h => (hk h).1) h4 h5 h6

theorem copyLength_eq {dl : VecL} {n : Nat} (l : List Val) (h : l.length = n) :
    (cutTo dl.maxLen l).length = copyLength dl n := by
  unfold cutTo copyLength
  cases dl.maxLen with
  | none => exact h
  | some m => simp only [List.length_take, h]; split <;> omega

theorem cutTo_getElem? {mx : Option Nat} {l : List Val} {i : Nat} (h : i < (cutTo mx l).length) :
    (cutTo mx l)[i]? = l[i]? := by
  unfold cutTo at *
  split
  · rfl
  · rw [List.getElem?_take]; rw [if_pos]; simp only [List.length_take] at h; omega

theorem xVector_tri (E : Env) (f : Nat → Nat → St → Res) (e : Ty) (sesz sal : Nat) (dl sl : VecL)
    (sa da : Nat) (st : St) (n : Nat) (ws : List Val)
    (hd : VecLayout dl e.size e.align) (hs : VecLayout sl sesz sal)
    (hc : VecCompat dl sl) (hn : lengthOp E.S sl sa = some n) (hn63 : n < 2 ^ 63)
    (hlen : ws.length = copyLength dl n)
    (hf : ∀ i w, ws[i]? = some w → ∀ d s,
      Tri s (Head d e.size) (.good e d w) (f (vecElemAddr E.S sl sa n i) d s)) :
    Tri st (Head da dl.size) (.good (.vector e dl) da (.vec ws))
      (xVector E f e.size e.align dl sl sa da st) := by
  unfold xVector
  rw [hn]
  simp only
  have hnW : n < W64 := Nat.lt_of_lt_of_le hn63 (by decide)
  have hle := copyLength_le_self dl n
  have hcW : copyLength dl n < W64 := by omega
  have hin := hd.lenIn
  have hls := hd.lenSize
  have hst := hd.stride
  have hlsz : copyLength dl n < 256 ^ dl.lenSize := by
    cases hm : dl.maxLen with
    | none => rw [hd.noMax hm]; exact hcW
    | some m => have := copyLength_le (n := n) hm; have := hd.max m hm; omega
  have hmax : ∀ m, dl.maxLen = some m → copyLength dl n ≤ m := fun m hm => copyLength_le hm
  let W : Nat → Val := fun i => ws[i]?.getD .unit
  have hW : ∀ i w, ws[i]? = some w → W i = w := fun i w h => by simp [W, h]
  have hW' : ∀ i, i < copyLength dl n → ws[i]? = some (W i) := fun i h => by
    simp [W, List.getElem?_eq_getElem (show i < ws.length by omega)]
  have hf' : ∀ i, i < copyLength dl n → ∀ d s, Tri s (Head d e.size) (.good e d (W i))
      (f (vecElemAddr E.S sl sa n i) d s) := fun i hi d s => hf i (W i) (hW' i hi) d s
  -- the part after the length
  have hlenG : ∀ (H2 : Nat → Prop) (G2 : Asrt) (k : St → Res), (∀ s, Tri s H2 G2 (k s)) →
      (∀ a, H2 a → Head da dl.size a) →
      (∀ a, Head (da + dl.lenOff) dl.lenSize a → ¬ H2 a) →
      (∀ lo hi R m, (Asrt.word (da + dl.lenOff) dl.lenSize (copyLength dl n)).P lo hi R m →
        G2.P lo hi R m → (Asrt.good (.vector e dl) da (.vec ws)).P lo hi R m) →
      Tri st (Head da dl.size) (.good (.vector e dl) da (.vec ws))
        ((storeLength dl da (copyLength dl n) st).bind k) := by
    intro H2 G2 k hk hH2 hdis hG
    unfold storeLength
    rw [if_neg (by omega)]
    refine (Tri.seq (H := Head da dl.size) (Tri.store _ _ _ _) (fun s _ => hk s) ?_ hH2).weaken ?_
    · intro a ha; unfold Head at *; omega
    · intro lo hi R m hP
      obtain ⟨hP1, hP2⟩ := hP hdis
      rw [Nat.mod_eq_of_lt hlsz] at hP1
      exact hG lo hi R m hP1 hP2
  -- final step for an inline destination
  have hinl : ∀ (k : St → Res), dl.isInl (copyLength dl n) = true →
      (∀ s, Tri s (HV (elemAt (da + dl.inlOff) dl.elemW) e.size 0 (copyLength dl n))
        (elemsA e (elemAt (da + dl.inlOff) dl.elemW) W (copyLength dl n) 0 (copyLength dl n)) (k s)) →
      Tri st (Head da dl.size) (.good (.vector e dl) da (.vec ws))
        ((storeLength dl da (copyLength dl n) st).bind fun s =>
          k (s.poison E.J (da + dl.inlOff) (e.size * dl.minLen))) := by
    intro k hdi hk
    have hdi' := isInl_true.1 hdi
    obtain ⟨hi1, hi2⟩ := hd.inl hdi'.1
    refine hlenG (Head (da + dl.inlOff) (dl.minLen * dl.elemW)) _ _ (fun s =>
      Tri.pre (r := .ok (s.poison E.J (da + dl.inlOff) (e.size * dl.minLen))) (f := k)
        (Frm.poison _ _ _ _ fun x h1 h2 => ⟨h1, ?_⟩) trivial fun s' _ =>
        (hk s').mono ?_) ?_ ?_ ?_
    · have h2' : e.size * dl.minLen ≤ dl.minLen * dl.elemW := by
        rw [Nat.mul_comm dl.minLen]; exact Nat.mul_le_mul_right _ hst
      omega
    · rintro a ⟨i, h1, h2, ha⟩; exact elem_in (by omega) hst ha
    · intro a ha; unfold Head at *; omega
    · intro a ha hb; unfold Disj at hi2; unfold Head at *; omega
    · intro lo hi R m hP1 hP2
      have hel := hP2 fun i j hij hj a ha => elem_disj hst hij ha
      refine good_vec (elemAt (da + dl.inlOff) dl.elemW) hd hlen (by omega) hmax lo hi R m hP1 ?_ ?_ ?_ ?_
      · intro hl1 hl2 i hi
        have hle : (i + 1) * dl.elemW ≤ dl.minLen * dl.elemW := Nat.mul_le_mul_right _ (by omega)
        rw [Nat.succ_mul] at hle
        unfold elemAt; omega
      · intro i w hw
        have hi : i < ws.length := (List.getElem?_eq_some_iff.1 hw).1
        rw [← hW i w hw]
        exact hel i (by omega) (by omega)
      · intro hl1 hl2 m2 k hk h4 h5 h6 i hi
        unfold vecElemAddr
        rw [if_pos hdi]
        unfold elemAt; omega
      · intro ho; rw [hdi] at ho; cases ho
  -- final step for an outlined destination
  have hout : ∀ (K : Nat → St → Res), dl.isInl (copyLength dl n) = false →
      (∀ p s, Tri s (HV (outD dl da p) e.size 0 (copyLength dl n))
        (elemsA e (outD dl da p) W (copyLength dl n) 0 (copyLength dl n)) (K p s)) →
      Tri st (Head da dl.size) (.good (.vector e dl) da (.vec ws))
        ((storeLength dl da (copyLength dl n) st).bind fun s =>
          (alignTo s e.align).bind fun sta => (storeRef dl da sta).bind fun st1 =>
          (alloc st1 (dl.elemW * sub64 (copyLength dl n) dl.ppl)).bind fun st2 => K sta.ptr st2) := by
    intro K hdo hK
    have hco := canOut_of hdo
    have hdo' := isInl_false.1 hdo
    have hpp := hd.ppl
    have hcp : dl.ppl ≤ copyLength dl n := by omega
    obtain ⟨h8, hrin, hrlen⟩ := hd.ref hco
    have hpar := hd.par hco
    refine hlenG _ (outA e dl da W (copyLength dl n)) _
      (fun s => out_tri hd hco hcp hcW K hK) ?_ ?_ ?_
    · intro a ha
      rcases ha with ha | ha
      · unfold Head at *; omega
      · by_cases h0 : dl.ppl = 0
        · rw [h0] at ha; unfold Head at ha; omega
        · have := (hpar h0).1; unfold Head at *; omega
    · intro a ha hb
      rcases hb with hb | hb
      · unfold Disj at hrlen; unfold Head at *; omega
      · by_cases h0 : dl.ppl = 0
        · rw [h0] at hb; unfold Head at hb; omega
        · have := (hpar h0).2.1; unfold Disj at this; unfold Head at *; omega
    · intro lo hi R m hP1 hP2
      obtain ⟨p, ⟨⟨hp1, hp2, hp3⟩, hpal⟩, href, hel⟩ := hP2
      refine good_vec (outD dl da p) hd hlen (by omega) hmax lo hi R m hP1 ?_ ?_ ?_ ?_
      · intro hl1 hl2 i hi
        unfold outD
        split
        · rename_i hip
          have := (hpar (by omega)).1
          have hle : (i + 1) * dl.elemW ≤ dl.ppl * dl.elemW := Nat.mul_le_mul_right _ (by omega)
          rw [Nat.succ_mul] at hle
          unfold elemAt; omega
        · have hle : (i - dl.ppl + 1) * dl.elemW ≤ (copyLength dl n - dl.ppl) * dl.elemW :=
            Nat.mul_le_mul_right _ (by omega)
          rw [Nat.succ_mul, Nat.mul_comm (copyLength dl n - dl.ppl)] at hle
          unfold elemAt; omega
      · intro i w hw
        have hi : i < ws.length := (List.getElem?_eq_some_iff.1 hw).1
        rw [← hW i w hw]
        exact hel i (by omega) (by omega)
      · intro hl1 hl2 m2 k hk h4 h5 h6 i hi
        unfold vecElemAddr outD
        rw [hdo]
        simp only [Bool.false_eq_true, if_false]
        split
        · unfold elemAt; omega
        · have hr := reloc_read hl1 h4 h6 href
          rw [refStart_good h8 (by omega) (by omega) (by omega) (by omega) hk hr]
          unfold elemAt; omega
      · intro _ _ hl1 hl2 hW m2 h6
        have hr := reloc_read (k := 0) hl1 (by omega) (fun a ha => by simpa using h6 a ha) href
        have := refStart_good (k := 0) h8 (by omega) (by omega) (by omega) (by omega) (fun h => absurd rfl h) hr
        simp only [Int.add_zero, Int.toNat_natCast] at this
        rw [this]
        exact hpal
  have hsp := hs.ppl
  have hdp := hd.ppl
  have hdm := hd.min
  have hsm := hs.min
  cases hsi : sl.isInl n with
  | true =>
    simp only [if_true]
    have hsi' := isInl_true.1 hsi
    have hA : ∀ i, vecElemAddr E.S sl sa n i = elemAt (sa + sl.inlOff) sl.elemW i := by
      intro i; unfold vecElemAddr; rw [if_pos hsi]
    cases hdi : dl.isInl (copyLength dl n) with
    | true =>
      have := hinl (fun s => copyLoop f (sa + sl.inlOff) sl.elemW 0 (da + dl.inlOff) dl.elemW 0
        (copyLength dl n) s) hdi (fun s => by
          have := seg_tri (D := elemAt (da + dl.inlOff) dl.elemW) hf' 0 (copyLength dl n)
            (sa + sl.inlOff) sl.elemW 0 (da + dl.inlOff) dl.elemW 0 s (by omega) (by omega)
            (fun j _ => (hA _).symm) (fun j _ => rfl)
          simpa only [Nat.zero_add] using this)
      refine cast ?_ this
      congr 1
      congr 1
      funext s
      unfold xInlineVec
      rw [if_neg (by omega), if_pos hdi]
    | false =>
      have hdo' := isInl_false.1 hdi
      have hcp : dl.ppl ≤ copyLength dl n := by omega
      have := hout (fun p s => (copyLoop f (sa + sl.inlOff) sl.elemW 0 (da + dl.parOff) dl.elemW 0
        dl.ppl s).bind fun st3 => copyLoop f (sa + sl.inlOff) sl.elemW dl.ppl p dl.elemW 0
          (sub64 (copyLength dl n) dl.ppl) st3) hdi (fun p s => by
          refine chain_tri (c := dl.ppl) ?_ (fun s => ?_) (by omega) hcp (Nat.le_refl _)
          · have := seg_tri (D := outD dl da p) hf' 0 dl.ppl
              (sa + sl.inlOff) sl.elemW 0 (da + dl.parOff) dl.elemW 0 s (by omega) (by omega)
              (fun j _ => (hA _).symm) (fun j hj => by unfold outD; rw [if_pos (by omega)])
            simpa only [Nat.zero_add] using this
          · have := seg_tri (D := outD dl da p) hf' dl.ppl (copyLength dl n - dl.ppl)
              (sa + sl.inlOff) sl.elemW dl.ppl p dl.elemW 0 s (by omega) (by omega)
              (fun j _ => (hA _).symm) (fun j hj => by
                unfold outD; rw [if_neg (by omega)]; congr 1; omega)
            rw [show dl.ppl + (copyLength dl n - dl.ppl) = copyLength dl n by omega] at this
            rw [sub64_eq hcp hcW]; exact this)
      refine cast ?_ this
      congr 1
      congr 1
      funext s
      unfold xInlineVec
      rw [if_neg (by omega), if_neg (by simp [hdi])]
  | false =>
    simp only [Bool.false_eq_true, if_false]
    have hso' := isInl_false.1 hsi
    have hnp : sl.ppl ≤ n := by omega
    have hA1 : ∀ i, i < sl.ppl → elemAt (sa + sl.parOff) sl.elemW i = vecElemAddr E.S sl sa n i := by
      intro i hi; unfold vecElemAddr; rw [hsi, if_pos hi]; simp
    have hA2 : ∀ i, elemAt (refStart E.S sl sa) sl.elemW i = vecElemAddr E.S sl sa n (sl.ppl + i) := by
      intro i; unfold vecElemAddr
      simp only [hsi, Bool.false_eq_true, if_false]
      rw [if_neg (by omega)]; congr 1; omega
    have hassume : ¬ (sl.minLen > 0 ∧ ¬ min (sl.minLen + 1) dl.maxBound ≤ copyLength dl n) := by
      rintro ⟨h1, h2⟩
      exact h2 (copyLength_ge (by omega) (by omega))
    cases hdi : dl.isInl (copyLength dl n) with
    | true =>
      have hdi' := isInl_true.1 hdi
      have hmin : min sl.ppl dl.maxBound ≤ copyLength dl n := copyLength_ge (by omega) (by omega)
      have hcopy : sl.ppl ≤ dl.maxBound ∨ copyLength dl n ≤ min sl.ppl dl.maxBound := by
        by_cases h : sl.ppl ≤ dl.maxBound
        · exact Or.inl h
        · right
          unfold VecL.maxBound at *
          cases hm : dl.maxLen with
          | none => rw [hm] at h; simp only at h; omega
          | some m => rw [hm] at h; simp only at h ⊢; have := hmax m hm; omega
      have := hinl (fun s => (copyLoop f (sa + sl.parOff) sl.elemW 0 (da + dl.inlOff) dl.elemW 0
          (min sl.ppl dl.maxBound) s).bind fun st1 =>
          copyLoop f (refStart E.S sl sa) sl.elemW 0 (da + dl.inlOff) dl.elemW (min sl.ppl dl.maxBound)
            (sub64 (copyLength dl n) (min sl.ppl dl.maxBound)) st1) hdi (fun s => by
          refine chain_tri (c := min sl.ppl dl.maxBound) ?_ (fun s => ?_) (by omega) hmin (Nat.le_refl _)
          · have := seg_tri (D := elemAt (da + dl.inlOff) dl.elemW) hf' 0 (min sl.ppl dl.maxBound)
              (sa + sl.parOff) sl.elemW 0 (da + dl.inlOff) dl.elemW 0 s (by omega) (by omega)
              (fun j hj => hA1 _ (by omega)) (fun j _ => rfl)
            simpa only [Nat.zero_add] using this
          · have := seg_tri (D := elemAt (da + dl.inlOff) dl.elemW) hf' (min sl.ppl dl.maxBound)
              (copyLength dl n - min sl.ppl dl.maxBound) (refStart E.S sl sa) sl.elemW 0
              (da + dl.inlOff) dl.elemW (min sl.ppl dl.maxBound) s (by omega) (by omega)
              (fun j hj => by rw [hA2]; congr 1; omega) (fun j _ => rfl)
            rw [show min sl.ppl dl.maxBound + (copyLength dl n - min sl.ppl dl.maxBound)
              = copyLength dl n by omega] at this
            rw [sub64_eq hmin hcW]; exact this)
      refine cast ?_ this
      congr 1
      congr 1
      funext s
      unfold xOutlineVec
      rw [if_neg hassume, if_pos hdi]
    | false =>
      have hdo' := isInl_false.1 hdi
      have hcp : dl.ppl ≤ copyLength dl n := by omega
      by_cases hpp : sl.ppl ≤ dl.ppl
      · have := hout (fun p s =>
            (copyLoop f (sa + sl.parOff) sl.elemW 0 (da + dl.parOff) dl.elemW 0 sl.ppl s).bind
              fun st3 => (copyLoop f (refStart E.S sl sa) sl.elemW 0 (da + dl.parOff) dl.elemW sl.ppl
                (dl.ppl - sl.ppl) st3).bind fun st4 =>
              copyLoop f (refStart E.S sl sa) sl.elemW (dl.ppl - sl.ppl) p dl.elemW 0
                (sub64 (copyLength dl n) dl.ppl) st4) hdi (fun p s => by
          refine chain_tri (c := sl.ppl) ?_ (fun s => ?_) (by omega) (by omega) (Nat.le_refl _)
          · have := seg_tri (D := outD dl da p) hf' 0 sl.ppl
              (sa + sl.parOff) sl.elemW 0 (da + dl.parOff) dl.elemW 0 s (by omega) (by omega)
              (fun j hj => hA1 _ (by omega)) (fun j hj => by unfold outD; rw [if_pos (by omega)])
            simpa only [Nat.zero_add] using this
          · refine chain_tri (c := dl.ppl) ?_ (fun s => ?_) (by omega) hcp (Nat.le_refl _)
            · have := seg_tri (D := outD dl da p) hf' sl.ppl (dl.ppl - sl.ppl)
                (refStart E.S sl sa) sl.elemW 0 (da + dl.parOff) dl.elemW sl.ppl s (by omega) (by omega)
                (fun j hj => by rw [hA2]; congr 1; omega)
                (fun j hj => by unfold outD; rw [if_pos (by omega)])
              rw [show sl.ppl + (dl.ppl - sl.ppl) = dl.ppl by omega] at this
              exact this
            · have := seg_tri (D := outD dl da p) hf' dl.ppl (copyLength dl n - dl.ppl)
                (refStart E.S sl sa) sl.elemW (dl.ppl - sl.ppl) p dl.elemW 0 s (by omega) (by omega)
                (fun j hj => by rw [hA2]; congr 1; omega) (fun j hj => by
                  unfold outD; rw [if_neg (by omega)]; congr 1; omega)
              rw [show dl.ppl + (copyLength dl n - dl.ppl) = copyLength dl n by omega] at this
              rw [sub64_eq hcp hcW]; exact this)
        refine cast ?_ this
        congr 1
        congr 1
        funext s
        unfold xOutlineVec
        rw [if_neg hassume, if_neg (by simp [hdi])]
        simp only [if_pos hpp]
      · have hmb : sl.ppl ≤ dl.maxBound := by
          rcases hc with h | ⟨h0, h⟩
          · exact h
          · unfold VecL.maxBound at h ⊢
            cases hm : dl.maxLen with
            | none => simp only; omega
            | some m =>
              rw [hm] at h; simp only at h ⊢
              have := hmax m hm; omega
        have hsc : sl.ppl ≤ copyLength dl n := copyLength_ge hnp hmb
        have := hout (fun p s =>
            (copyLoop f (sa + sl.parOff) sl.elemW 0 (da + dl.parOff) dl.elemW 0 dl.ppl s).bind
              fun st3 => (copyLoop f (sa + sl.parOff) sl.elemW dl.ppl p dl.elemW 0
                (sl.ppl - dl.ppl) st3).bind fun st4 =>
              copyLoop f (refStart E.S sl sa) sl.elemW 0 p dl.elemW (sl.ppl - dl.ppl)
                (sub64 (copyLength dl n) sl.ppl) st4) hdi (fun p s => by
          refine chain_tri (c := dl.ppl) ?_ (fun s => ?_) (by omega) (by omega) (Nat.le_refl _)
          · have := seg_tri (D := outD dl da p) hf' 0 dl.ppl
              (sa + sl.parOff) sl.elemW 0 (da + dl.parOff) dl.elemW 0 s (by omega) (by omega)
              (fun j hj => hA1 _ (by omega)) (fun j hj => by unfold outD; rw [if_pos (by omega)])
            simpa only [Nat.zero_add] using this
          · refine chain_tri (c := sl.ppl) ?_ (fun s => ?_) (by omega) hsc (Nat.le_refl _)
            · have := seg_tri (D := outD dl da p) hf' dl.ppl (sl.ppl - dl.ppl)
                (sa + sl.parOff) sl.elemW dl.ppl p dl.elemW 0 s (by omega) (by omega)
                (fun j hj => hA1 _ (by omega))
                (fun j hj => by unfold outD; rw [if_neg (by omega)]; congr 1; omega)
              rw [show dl.ppl + (sl.ppl - dl.ppl) = sl.ppl by omega] at this
              exact this
            · have := seg_tri (D := outD dl da p) hf' sl.ppl (copyLength dl n - sl.ppl)
                (refStart E.S sl sa) sl.elemW 0 p dl.elemW (sl.ppl - dl.ppl) s (by omega) (by omega)
                (fun j hj => by rw [hA2]; congr 1; omega) (fun j hj => by
                  unfold outD; rw [if_neg (by omega)]; congr 1; omega)
              rw [show sl.ppl + (copyLength dl n - sl.ppl) = copyLength dl n by omega] at this
              rw [sub64_eq hsc hcW]; exact this)
        refine cast ?_ this
        congr 1
        congr 1
        funext s
        unfold xOutlineVec
        rw [if_neg hassume, if_neg (by simp [hdi])]
        simp only [if_neg hpp]

end PJ
