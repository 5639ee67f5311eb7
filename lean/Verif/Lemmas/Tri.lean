import Verif.Lemmas.FrameX
import Verif.Spec.Value
import Verif.Spec.Aligned
/-!
# A small program logic for the transcode functions

`Tri st H G r`: running from `st` with result `r` only writes `H` and buffer bytes, has no undefined
behaviour, throws only with a bounded buffer, and on success establishes the assertion `G` about the
bytes written.
-/
namespace PJ

/-- An assertion about the bytes in a region of memory inside the address range `[lo, hi]`. -/
structure Asrt where
  P : Nat → Nat → (Nat → Prop) → Mem → Prop
  loc : ∀ {lo hi : Nat} {R R' : Nat → Prop} {m m' : Mem}, P lo hi R m → (∀ a, R a → R' a) →
    (∀ a, R a → m' a = m a) → P lo hi R' m'

namespace Asrt

def top : Asrt := ⟨fun _ _ _ _ => True, fun _ _ _ => trivial⟩

def and (G1 G2 : Asrt) : Asrt :=
  ⟨fun lo hi R m => G1.P lo hi R m ∧ G2.P lo hi R m,
    fun h hR hm => ⟨G1.loc h.1 hR hm, G2.loc h.2 hR hm⟩⟩

/-- Under a condition on the address range. -/
def imp (p : Nat → Nat → Prop) (G : Asrt) : Asrt :=
  ⟨fun lo hi R m => p lo hi → G.P lo hi R m, fun h hR hm hp => G.loc (h hp) hR hm⟩

def all (i n : Nat) (G : Nat → Asrt) : Asrt :=
  ⟨fun lo hi R m => ∀ j, i ≤ j → j < n → (G j).P lo hi R m,
    fun h hR hm j h1 h2 => (G j).loc (h j h1 h2) hR hm⟩

/-- The `n` bytes at `a` are in the region and hold the number `v`. -/
def word (a n v : Nat) : Asrt :=
  ⟨fun _ _ R m => (∀ i, i < n → R (a + i)) ∧ readN m a n = v,
    fun h hR hm => ⟨fun i hi => hR _ (h.1 i hi),
      by rw [readN_congr fun i hi => hm _ (h.1 i hi)]; exact h.2⟩⟩

end Asrt

mutual
/-- All vectors store self-relative offsets. -/
def Ty.reloc : Ty → Prop
  | .struct fs _ _ => fs.reloc
  | .variant ts _ => ts.reloc
  | .array e _ _ _ => e.reloc
  | .vector e l => e.reloc ∧ l.mode = .offset
  | _ => True
def Fields.reloc : Fields → Prop
  | .nil => True
  | .cons _ _ t r => t.reloc ∧ r.reloc
def Terms.reloc : Terms → Prop
  | .nil => True
  | .cons _ _ _ t r => t.reloc ∧ r.reloc
end

/-- Reading the object at `da` gives `w`, depending only on the bytes in the region, also after
moving these bytes by `k` (which has to be 0 if the type has vectors with absolute pointers).  Where it was written, its
references point to aligned elements. -/
def GoodAt (lo hi : Nat) (R : Nat → Prop) (m : Mem) (t : Ty) (da : Nat) (w : Val) : Prop :=
  lo ≤ da → da + t.size ≤ hi → ∀ (m2 : Mem) (k : Int), (k ≠ 0 → t.reloc) → 0 ≤ (lo : Int) + k →
    (hi : Int) + k < W64 → (∀ a : Nat, R a → m2 ((a : Int) + k).toNat = m a) →
    readVal m2 t ((da : Int) + k).toNat = some w ∧ (k = 0 → Ptrs m2 t [] ((da : Int) + k).toNat)

def Asrt.good (t : Ty) (da : Nat) (w : Val) : Asrt :=
  ⟨fun lo hi R m => GoodAt lo hi R m t da w, fun h hR hm h1 h2 m2 k h3 h4 h5 h6 =>
    h h1 h2 m2 k h3 h4 h5 fun a ha => by rw [h6 a (hR a ha)]; exact hm a ha⟩

/-- The assertion holds after a run from `st` to `s`, if addresses did not wrap and the destination
is apart from the buffer. -/
def Done (st s : St) (H : Nat → Prop) (G : Asrt) : Prop :=
  ∀ d lo hi, s.used = st.used + d → (∀ a, H a → lo ≤ a ∧ a < hi) → lo ≤ st.ptr → st.ptr + d ≤ hi →
    hi < W64 → (∀ a, H a → ¬ (st.ptr ≤ a ∧ a < st.ptr + d)) →
    G.P lo hi (fun a => H a ∨ (st.ptr ≤ a ∧ a < st.ptr + d)) s.mem

def Post (Q : St → Prop) : Res → Prop
  | .ok s => Q s
  | .throw s => s.rem ≠ none
  | .ub => False

def Tri (st : St) (H : Nat → Prop) (G : Asrt) (r : Res) : Prop :=
  FrmRes H st r ∧ Post (fun s => Done st s H G) r

theorem Tri.ok {st s : St} {H : Nat → Prop} {G : Asrt} (h : Tri st H G (.ok s)) :
    Frm H st s ∧ Done st s H G := h

/-- Change of region and assertion. -/
theorem Tri.conseq {st : St} {H H' : Nat → Prop} {G G' : Asrt} {r : Res} (h : Tri st H G r)
    (hH : ∀ a, H a → H' a) (hG : ∀ lo hi R m, lo ≤ st.ptr → st.ptr ≤ hi → hi < W64 →
      G.P lo hi R m → G'.P lo hi R m) : Tri st H' G' r := by
  refine ⟨FrmRes.mono h.1 hH, ?_⟩
  cases r with
  | ok s =>
    intro d lo hi hu hb hl hp hw hd
    refine hG _ _ _ _ hl (by omega) hw (G.loc (h.2 d lo hi hu (fun a ha => hb a (hH a ha)) hl hp hw
      fun a ha => hd a (hH a ha)) ?_ fun _ _ => rfl)
    intro a ha
    exact ha.imp (hH a) id
  | throw s => exact h.2
  | ub => exact h.2

theorem Tri.mono {st : St} {H H' : Nat → Prop} {G : Asrt} {r : Res} (h : Tri st H G r)
    (hH : ∀ a, H a → H' a) : Tri st H' G r := h.conseq hH fun _ _ _ _ _ _ _ h => h

theorem Tri.weaken {st : St} {H : Nat → Prop} {G G' : Asrt} {r : Res} (h : Tri st H G r)
    (hG : ∀ lo hi R m, G.P lo hi R m → G'.P lo hi R m) : Tri st H G' r :=
  h.conseq (fun _ h => h) fun lo hi R m _ _ _ h => hG lo hi R m h

/-- A first part whose effect does not matter. -/
theorem Tri.pre {st : St} {H : Nat → Prop} {G : Asrt} {r : Res} {f : St → Res}
    (h1 : FrmRes H st r) (h1' : Post (fun _ => True) r)
    (h2 : ∀ s, r = .ok s → Tri s H G (f s)) : Tri st H G (r.bind f) := by
  refine ⟨FrmRes.bind h1 fun s hs => (h2 s hs).1, ?_⟩
  cases r with
  | throw s => exact h1'
  | ub => exact h1'
  | ok s =>
    have h2 := (h2 s rfl).2
    simp only [Res.bind]
    cases hf : f s with
    | throw s2 => rw [hf] at h2; exact h2
    | ub => rw [hf] at h2; exact h2
    | ok s2 =>
      rw [hf] at h2
      intro d lo hi hu hb hl hp hw hd
      obtain ⟨_, d1, hu1, hp1, hm1⟩ := h1 (by omega)
      have hf2 : FrmRes H s (f s) := (‹∀ s', Res.ok s = .ok s' → Tri s' H G (f s')› s rfl).1
      rw [hf] at hf2
      obtain ⟨_, d2, hu2, hp2, _⟩ := hf2 (by rw [hp1]; exact Nat.mod_lt _ (by decide))
      have hd12 : d = d1 + d2 := by omega
      have hpe : s.ptr = st.ptr + d1 := by rw [hp1]; exact Nat.mod_eq_of_lt (by omega)
      refine G.loc (h2 d2 lo hi hu2 hb (by omega) (by omega) hw ?_) ?_ fun _ _ => rfl
      · intro a ha; have := hd a ha; omega
      · intro a ha; rcases ha with ha | ha
        · exact Or.inl ha
        · right; omega

/-- Two parts writing to different places. -/
theorem Tri.seq {st : St} {H H1 H2 : Nat → Prop} {G1 G2 : Asrt} {r : Res} {f : St → Res}
    (h1 : Tri st H1 G1 r) (h2 : ∀ s, r = .ok s → Tri s H2 G2 (f s))
    (hH1 : ∀ a, H1 a → H a) (hH2 : ∀ a, H2 a → H a) :
    Tri st H (Asrt.imp (fun _ _ => ∀ a, H1 a → ¬ H2 a) (G1.and G2)) (r.bind f) := by
  refine ⟨FrmRes.bind (FrmRes.mono h1.1 hH1) fun s hs => FrmRes.mono (h2 s hs).1 hH2, ?_⟩
  cases r with
  | throw s => exact h1.2
  | ub => exact h1.2
  | ok s =>
    have h2 := h2 s rfl
    simp only [Res.bind]
    cases hf : f s with
    | throw s2 => rw [hf] at h2; exact h2.2
    | ub => rw [hf] at h2; exact h2.2
    | ok s2 =>
      rw [hf] at h2
      intro d lo hi hu hb hl hp hw hd hdis
      obtain ⟨_, d1, hu1, hp1, hm1⟩ := h1.1 (by omega)
      obtain ⟨_, d2, hu2, hp2, hm2⟩ := h2.1 (by rw [hp1]; exact Nat.mod_lt _ (by decide))
      have hd12 : d = d1 + d2 := by omega
      have hpe : s.ptr = st.ptr + d1 := by rw [hp1]; exact Nat.mod_eq_of_lt (by omega)
      constructor
      · refine G1.loc (h1.2 d1 lo hi hu1 (fun a ha => hb a (hH1 a ha)) hl (by omega) hw ?_) ?_ ?_
        · intro a ha; have := hd a (hH1 a ha); omega
        · intro a ha; rcases ha with ha | ha
          · exact Or.inl (hH1 a ha)
          · right; omega
        · intro a ha
          refine hm2 (by omega) a ?_ ?_
          · intro h2a
            rcases ha with ha | ha
            · exact hdis a ha h2a
            · exact hd a (hH2 a h2a) (by omega)
          · intro hc
            rcases ha with ha | ha
            · exact hd a (hH1 a ha) (by omega)
            · omega
      · refine G2.loc (h2.2 d2 lo hi hu2 (fun a ha => hb a (hH2 a ha)) (by omega) (by omega) hw ?_)
          ?_ fun _ _ => rfl
        · intro a ha; have := hd a (hH2 a ha); omega
        · intro a ha; rcases ha with ha | ha
          · exact Or.inl (hH2 a ha)
          · right; omega

/-- Allocation of a place which is then written. -/
theorem Tri.allocd {st : St} {H : Nat → Prop} {G : Asrt} {n : Nat} {f : St → Res}
    (h2 : ∀ s, alloc st n = .ok s →
      Tri s (fun a => H a ∨ (st.ptr ≤ a ∧ a < st.ptr + n)) (Asrt.imp (fun lo hi =>
        lo ≤ st.ptr ∧ st.ptr + n ≤ hi ∧ hi < W64 ∧ ∀ a, H a → ¬ (st.ptr ≤ a ∧ a < st.ptr + n)) G)
        (f s)) :
    Tri st H G ((alloc st n).bind f) := by
  refine ⟨FrmRes.absorb (FrmRes.alloc _ _ _) (fun s hs => (h2 s hs).1) ?_, ?_⟩
  · intro s d hs hu hw hps a ha
    have := (alloc_ok hs).2.1
    rcases ha with ha | ha
    · exact Or.inl ha
    · right; omega
  · cases ha : alloc st n with
    | ub => unfold alloc at ha; split at ha <;> first | cases ha | (split at ha <;> cases ha)
    | throw s =>
      unfold alloc at ha
      split at ha
      · cases ha
      · rename_i r hr; split at ha
        · cases ha; simp only [Res.bind, Post]; rw [hr]; simp
        · cases ha
    | ok s =>
      have h2 := h2 s ha
      obtain ⟨hm, hu1, hp1, _⟩ := alloc_ok ha
      simp only [Res.bind]
      cases hf : f s with
      | throw s2 => rw [hf] at h2; exact h2.2
      | ub => rw [hf] at h2; exact h2.2
      | ok s2 =>
        rw [hf] at h2
        intro d lo hi hu hb hl hp hw hd
        obtain ⟨_, d2, hu2, hp2, hm2⟩ := h2.1 (by rw [hp1]; exact Nat.mod_lt _ (by decide))
        have hd12 : d = n + d2 := by omega
        have hpe : s.ptr = st.ptr + n := by rw [hp1]; exact Nat.mod_eq_of_lt (by omega)
        refine G.loc (h2.2 d2 lo hi hu2 ?_ (by omega) (by omega) hw ?_ ⟨hl, by omega, hw, ?_⟩) ?_
          fun _ _ => rfl
        · intro a ha; rcases ha with ha | ha
          · exact hb a ha
          · omega
        · intro a ha; rcases ha with ha | ha
          · have := hd a ha; omega
          · omega
        · intro a ha; have := hd a ha; omega
        · intro a ha; rcases ha with (ha | ha) | ha
          · exact Or.inl ha
          · right; omega
          · right; omega

theorem Post.alloc (st : St) (n : Nat) : Post (fun _ => True) (alloc st n) := by
  unfold PJ.alloc
  split
  · trivial
  · rename_i r hr; split
    · simp only [Post]; rw [hr]; simp
    · trivial

theorem Tri.refl {st : St} {H : Nat → Prop} {G : Asrt} (hG : ∀ lo hi R m, G.P lo hi R m) :
    Tri st H G (.ok st) :=
  ⟨Frm.refl _ _, fun _ _ _ _ _ _ _ _ _ => hG _ _ _ _⟩

theorem Tri.store (st : St) (a k n : Nat) :
    Tri st (Head a k) (Asrt.word a k (n % 256 ^ k)) (.ok (st.store a k n)) := by
  refine ⟨Frm.store _ _ _ _ fun x h1 h2 => ⟨h1, h2⟩, ?_⟩
  intro d lo hi hu hb hl hp hw hd
  refine ⟨fun i hi => Or.inl ⟨by omega, by omega⟩, ?_⟩
  exact readN_writeN _ _ _ _

/-- A loop whose iterations write to different places. -/
theorem Tri.loop {Hj : Nat → Nat → Prop} {G : Nat → Asrt} {body : Nat → St → Res} (n i : Nat)
    (st : St) (h : ∀ j s, i ≤ j → j < i + n → Tri s (Hj j) (G j) (body j s)) :
    Tri st (fun a => ∃ j, i ≤ j ∧ j < i + n ∧ Hj j a)
      (Asrt.imp (fun _ _ => ∀ j j', i ≤ j → j < j' → j' < i + n → ∀ a, Hj j a → ¬ Hj j' a)
        (Asrt.all i (i + n) G)) (loop body n i st) := by
  induction n generalizing i st with
  | zero => exact Tri.refl fun lo hi R m _ j h1 h2 => by omega
  | succ n ih =>
    refine (Tri.seq (H := fun a => ∃ j, i ≤ j ∧ j < i + (n + 1) ∧ Hj j a)
      (h i st (by omega) (by omega))
      (fun s _ => ih (i + 1) s fun j s h1 h2 => h j s (by omega) (by omega)) ?_ ?_).weaken ?_
    · intro a ha; exact ⟨i, by omega, by omega, ha⟩
    · rintro a ⟨j, h1, h2, ha⟩; exact ⟨j, by omega, by omega, ha⟩
    · intro lo hi R m hP hdis j h1 h2
      obtain ⟨hP1, hP2⟩ := hP (by
        rintro a ha ⟨j, h1, h2, haj⟩
        exact hdis i j (by omega) (by omega) (by omega) a ha haj)
      by_cases hj : j = i
      · subst hj; exact hP1
      · exact hP2 (fun j j' h1 h2 h3 => hdis j j' (by omega) h2 (by omega)) j (by omega) (by omega)

theorem keepBuf_eq {H : Nat → Prop} {st : St} {r : Res} (h : DRes H st r) : keepBuf st r = r := by
  cases r with
  | ok s =>
    obtain ⟨h1, h2, h3, _⟩ := h
    unfold keepBuf
    simp only [Res.bind]
    rw [← h1, ← h2, ← h3]
  | throw s => exact absurd h id
  | ub => rfl

theorem Res.bind_assoc (r : Res) (f g : St → Res) :
    (r.bind f).bind g = r.bind fun s => (f s).bind g := by
  cases r <;> rfl

theorem collect_some {α} {f : Nat → Option α} {i n : Nat} {vs : List α}
    (h : collect f i n = some vs) : vs.length = n ∧ ∀ j, j < n → f (i + j) = vs[j]? := by
  induction n generalizing i vs with
  | zero => simp [collect] at h; subst h; simp
  | succ n ih =>
    simp only [collect] at h
    split at h
    · rename_i x xs hx hxs
      cases h
      obtain ⟨h1, h2⟩ := ih hxs
      refine ⟨by simp [h1], fun j hj => ?_⟩
      cases j with
      | zero => simpa using hx
      | succ j => rw [show i + (j + 1) = i + 1 + j by omega, h2 j (by omega)]; simp
    · cases h

theorem collect_of {α} {f : Nat → Option α} {i n : Nat} {vs : List α} (hl : vs.length = n)
    (h : ∀ j, j < n → f (i + j) = vs[j]?) : collect f i n = some vs := by
  induction n generalizing i vs with
  | zero => simp [List.length_eq_zero_iff.1 hl, collect]
  | succ n ih =>
    cases vs with
    | nil => simp at hl
    | cons x xs =>
      simp only [collect]
      have h0 := h 0 (by omega)
      simp only [Nat.add_zero, List.getElem?_cons_zero] at h0
      rw [h0, ih (i := i + 1) (vs := xs) (by simpa using hl) fun j hj => by
        have := h (j + 1) (by omega)
        rw [show i + 1 + j = i + (j + 1) by omega, this]; simp]

theorem mapAll_some {α β} {f : α → Option β} {l : List α} {ws : List β}
    (h : mapAll f l = some ws) : ws.length = l.length ∧
      ∀ (j : Nat) x, l[j]? = some x → ∃ y, ws[j]? = some y ∧ f x = some y := by
  induction l generalizing ws with
  | nil => simp [mapAll] at h; subst h; simp
  | cons a l ih =>
    simp only [mapAll] at h
    split at h
    · rename_i y ys hy hys
      cases h
      obtain ⟨h1, h2⟩ := ih hys
      refine ⟨by simp [h1], fun j x hx => ?_⟩
      cases j with
      | zero => simp at hx; subst hx; exact ⟨y, by simp, hy⟩
      | succ j => simp at hx; obtain ⟨z, hz, hz'⟩ := h2 j x hx; exact ⟨z, by simpa using hz, hz'⟩
    · cases h

end PJ
