import Verif.Lemmas.HoistFits
import Verif.Lemmas.Tight
import Verif.Lemmas.Round
/-!
# Terms made by vector hoisting

Every term made by hoisting is the original term with some vectors replaced by their short or long
version (`choose`).  The exact size of a message with one choice is compared with the rounded size of
the other choice that the rounded lengths lead to.
-/
namespace PJ

/-- The vector is not split. -/
abbrev VecL.fixed (l : VecL) : Prop := l.wireMin = 0 ∨ l.maxLen = some l.wireMin

mutual
/-- The type with the vectors at some paths replaced by the short (`true`) or long version. -/
def choose (σ : Path → Option Bool) : Ty → Ty
  | .vector e l =>
    if l.wireMin = 0 ∨ l.maxLen = some l.wireMin then .vector e l
    else
      match σ [['_']] with
      | some true => .vector e (bareVec e (some l.wireMin) l.wireMin)
      | some false => .vector e (bareVec e l.maxLen 0)
      | none => .vector e l
  | .struct fs sz al => .struct (chooseFields σ fs) sz al
  | .int w s a => .int w s a
  | .float w a => .float w a
  | .unit => .unit
  | .variant ts l => .variant ts l
  | .array e n a b => .array e n a b
def chooseFields (σ : Path → Option Bool) : Fields → Fields
  | .nil => .nil
  | .cons n o t r => .cons n o (choose (fun p => σ (n :: p)) t) (chooseFields σ r)
end

mutual
/-- The inline length of the vector at a path, if it is to be split. -/
def elig : Ty → Path → Option Nat
  | .vector _ l, p => if p = [['_']] ∧ ¬ (l.wireMin = 0 ∨ l.maxLen = some l.wireMin) then some l.wireMin else none
  | .struct fs _ _, p =>
    match p with
    | [] => none
    | c :: q => eligF fs c q
  | _, _ => none
def eligF : Fields → Comp → Path → Option Nat
  | .nil, _, _ => none
  | .cons n _ t r, c, q => if n = c then elig t q else eligF r c q
end

def upd (σ : Path → Option Bool) (p : Path) (b : Bool) : Path → Option Bool :=
  fun q => if q = p then some b else σ q

theorem eligF_of_mem : ∀ (fs : Fields) (c : Comp) (q : Path), (∀ x ∈ fs.toList, x.1 ≠ c) → eligF fs c q = none
  | .nil, _, _, _ => by simp [eligF]
  | .cons n o t r, c, q, h => by
    simp only [eligF]
    rw [if_neg (h (n, o, t) (by simp [Fields.toList])),
      eligF_of_mem r c q fun x hx => h x (by simp [Fields.toList, hx])]

theorem chooseFields_names (σ : Path → Option Bool) : ∀ fs : Fields,
    (chooseFields σ fs).toList.map (·.1) = fs.toList.map (·.1)
  | .nil => rfl
  | .cons n o t r => by simp only [chooseFields, Fields.toList, List.map_cons, chooseFields_names σ r]

/-- Choices at other names do not matter. -/
theorem chooseFields_upd (σ : Path → Option Bool) (c : Comp) (q : Path) (b : Bool) : ∀ fs : Fields,
    (∀ x ∈ fs.toList, x.1 ≠ c) → chooseFields (upd σ (c :: q) b) fs = chooseFields σ fs
  | .nil, _ => rfl
  | .cons n o t r, h => by
    have hn : n ≠ c := h (n, o, t) (by simp [Fields.toList])
    simp only [chooseFields]
    rw [chooseFields_upd σ c q b r fun x hx => h x (by simp [Fields.toList, hx])]
    rw [show (fun p => upd σ (c :: q) b (n :: p)) = fun p => σ (n :: p) from
      funext fun p => by simp [upd, hn]]

mutual
/-- A split of a chosen type is one more choice. -/
theorem split_choose : ∀ (t : Ty) (σ : Path → Option Bool) (s : Split), Sch t →
    splitFirst (choose σ t) = some s →
    s.short = choose (upd σ s.path true) t ∧ s.long = choose (upd σ s.path false) t ∧
      elig t s.path = some s.len ∧ σ s.path = none
  | .vector e l, σ, s, hs, h => by
    simp only [choose] at h
    split at h
    · rename_i hf
      simp only [splitFirst, if_pos hf] at h
      cases h
    · rename_i hf
      split at h
      · simp [splitFirst, bareVec] at h
      · simp [splitFirst, bareVec] at h
      · rename_i hn
        simp only [splitFirst, if_neg hf] at h
        cases h
        simp [choose, upd, hf, elig, hn]
  | .struct fs sz al, σ, s, hs, h => by
    simp only [choose, splitFirst] at h
    split at h
    · rename_i n short long path hsp
      cases h
      simp only [Sch] at hs
      obtain ⟨h1, h2, ⟨c, q, h3, h4⟩, h5⟩ := splitFields_choose fs σ n short long path hs.1 hs.2 hsp
      simp only [choose]
      exact ⟨by rw [h1], by rw [h2], by rw [h3]; simpa only [elig] using h4, h5⟩
    · cases h
  | .int _ _ _, σ, s, hs, h => by simp [choose, splitFirst] at h
  | .float _ _, σ, s, hs, h => by simp [choose, splitFirst] at h
  | .unit, σ, s, hs, h => by simp [choose, splitFirst] at h
  | .variant _ _, σ, s, hs, h => by simp [choose, splitFirst] at h
  | .array _ _ _ _, σ, s, hs, h => by simp [choose, splitFirst] at h
termination_by structural t => t
theorem splitFields_choose : ∀ (fs : Fields) (σ : Path → Option Bool) (n : Nat) (short long : Fields)
    (path : Path), (fs.toList.map (·.1)).Nodup → SchFields fs →
    splitFields (chooseFields σ fs) = some (n, short, long, path) →
    short = chooseFields (upd σ path true) fs ∧ long = chooseFields (upd σ path false) fs ∧
      (∃ c q, path = c :: q ∧ eligF fs c q = some n) ∧ σ path = none
  | .nil, σ, n, short, long, path, hn, hs, h => by simp [chooseFields, splitFields] at h
  | .cons c o t r, σ, n, short, long, path, hn, hs, h => by
    simp only [Fields.toList, List.map_cons, List.nodup_cons, List.mem_map, not_exists, not_and] at hn
    simp only [SchFields] at hs
    simp only [chooseFields, splitFields] at h
    split at h
    · rename_i s hsp
      cases h
      obtain ⟨h1, h2, h3, h4⟩ := split_choose t _ s hs.1 hsp
      have hne : ∀ x ∈ r.toList, x.1 ≠ c := fun x hx => hn.1 x hx
      have hu : ∀ b, (fun p => upd σ (c :: s.path) b (c :: p)) = upd (fun p => σ (c :: p)) s.path b := by
        intro b; funext p; simp [upd]
      simp only [Path.expand, chooseFields, hu]
      rw [chooseFields_upd σ c s.path true r hne, chooseFields_upd σ c s.path false r hne, h1, h2]
      exact ⟨rfl, rfl, ⟨c, s.path, rfl, by simp [eligF, h3]⟩, h4⟩
    · split at h
      · rename_i k s l p hsp
        cases h
        obtain ⟨h1, h2, ⟨d, q, h3, h4⟩, h5⟩ := splitFields_choose r σ _ _ _ _ hn.2 hs.2 hsp
        have hdc : c ≠ d := by
          intro e; subst e
          rw [eligF_of_mem r c q fun x hx => hn.1 x hx] at h4
          cases h4
        subst h3
        have hu : ∀ b, (fun p => upd σ (d :: q) b (c :: p)) = fun p => σ (c :: p) := by
          intro b; funext p; simp [upd, hdc]
        simp only [chooseFields, hu]
        rw [← h1, ← h2]
        exact ⟨rfl, rfl, ⟨d, q, rfl, by simp [eligF, hdc, h4]⟩, h5⟩
      · cases h
termination_by structural fs => fs
end

mutual
/-- When nothing is left to split, every vector was chosen. -/
theorem choose_complete : ∀ (t : Ty) (σ : Path → Option Bool), eligible (choose σ t) = 0 →
    ∀ p n, elig t p = some n → (σ p).isSome = true
  | .vector e l, σ, h, p, n, hp => by
    simp only [elig] at hp
    split at hp
    · rename_i hc
      obtain ⟨rfl, hf⟩ := hc
      simp only [choose, if_neg hf] at h
      cases hx : σ [['_']] with
      | some b => rfl
      | none => rw [hx] at h; simp [eligible, hf] at h
    · cases hp
  | .struct fs sz al, σ, h, p, n, hp => by
    simp only [choose, eligible] at h
    simp only [elig] at hp
    cases p with
    | nil => cases hp
    | cons c q => exact chooseFields_complete fs σ h c q n hp
  | .int _ _ _, σ, h, p, n, hp => by simp [elig] at hp
  | .float _ _, σ, h, p, n, hp => by simp [elig] at hp
  | .unit, σ, h, p, n, hp => by simp [elig] at hp
  | .variant _ _, σ, h, p, n, hp => by simp [elig] at hp
  | .array _ _ _ _, σ, h, p, n, hp => by simp [elig] at hp
termination_by structural t => t
theorem chooseFields_complete : ∀ (fs : Fields) (σ : Path → Option Bool), eligibleFields (chooseFields σ fs) = 0 →
    ∀ c q n, eligF fs c q = some n → (σ (c :: q)).isSome = true
  | .nil, σ, h, c, q, n, hp => by simp [eligF] at hp
  | .cons d o t r, σ, h, c, q, n, hp => by
    simp only [chooseFields, eligibleFields] at h
    simp only [eligF] at hp
    split at hp
    · rename_i hd
      subst hd
      exact choose_complete t (fun p => σ (d :: p)) (by omega) q n hp
    · exact chooseFields_complete r σ (by omega) c q n hp
termination_by structural fs => fs
end

mutual
theorem choose_none : ∀ t : Ty, choose (fun _ => none) t = t
  | .vector e l => by simp [choose]
  | .struct fs _ _ => by simp [choose, chooseFields_none fs]
  | .int _ _ _ => by simp [choose]
  | .float _ _ => by simp [choose]
  | .unit => by simp [choose]
  | .variant _ _ => by simp [choose]
  | .array _ _ _ _ => by simp [choose]
termination_by structural t => t
theorem chooseFields_none : ∀ fs : Fields, chooseFields (fun _ => none) fs = fs
  | .nil => by simp [chooseFields]
  | .cons _ _ t r => by simp [chooseFields, choose_none t, chooseFields_none r]
termination_by structural fs => fs
end

mutual
/-- Without vectors to split there is no choice. -/
theorem choose_fixed : ∀ (t : Ty) (σ : Path → Option Bool), Sch t → (∀ p, elig t p = none) → choose σ t = t
  | .vector e l, σ, hs, h => by
    have := h [['_']]
    simp only [elig] at this
    simp only [choose]
    split
    · rfl
    · rename_i hf; simp [hf] at this
  | .struct fs _ _, σ, hs, h => by
    simp only [choose]
    simp only [Sch] at hs
    rw [chooseFields_fixed fs σ hs.1 hs.2 fun c q => by simpa only [elig] using h (c :: q)]
  | .int _ _ _, _, _, _ => by simp [choose]
  | .float _ _, _, _, _ => by simp [choose]
  | .unit, _, _, _ => by simp [choose]
  | .variant _ _, _, _, _ => by simp [choose]
  | .array _ _ _ _, _, _, _ => by simp [choose]
termination_by structural t => t
theorem chooseFields_fixed : ∀ (fs : Fields) (σ : Path → Option Bool), (fs.toList.map (·.1)).Nodup →
    SchFields fs → (∀ c q, eligF fs c q = none) → chooseFields σ fs = fs
  | .nil, _, _, _, _ => by simp [chooseFields]
  | .cons n o t r, σ, hn, hs, h => by
    simp only [Fields.toList, List.map_cons, List.nodup_cons, List.mem_map, not_exists, not_and] at hn
    simp only [SchFields] at hs
    simp only [chooseFields]
    rw [choose_fixed t _ hs.1 fun q => by simpa [eligF] using h n q,
      chooseFields_fixed r σ hn.2 hs.2 fun c q => by
        by_cases hc : n = c
        · subst hc; exact eligF_of_mem r n q fun x hx => hn.1 x hx
        · simpa [eligF, hc] using h c q]
termination_by structural fs => fs
end

mutual
theorem choose_noSplit : ∀ (t : Ty) (σ : Path → Option Bool), (layout t).noSplit → (layout (choose σ t)).noSplit
  | .vector e l, σ, h => by
    simp only [choose]
    split
    · exact h
    · split <;> exact h
  | .struct fs _ _, σ, h => by
    simp only [choose, layout, Ty.noSplit] at h ⊢
    exact chooseFields_noSplit fs σ 0 h
  | .int _ _ _, _, h => by simpa only [choose] using h
  | .float _ _, _, h => by simpa only [choose] using h
  | .unit, _, h => by simpa only [choose] using h
  | .variant _ _, _, h => by simpa only [choose] using h
  | .array _ _ _ _, _, h => by simpa only [choose] using h
termination_by structural t => t
theorem chooseFields_noSplit : ∀ (fs : Fields) (σ : Path → Option Bool) (off : Nat),
    (layoutFields fs off 1).1.noSplit → ∀ {off' : Nat}, (layoutFields (chooseFields σ fs) off' 1).1.noSplit
  | .nil, _, _, _, _ => by simp [chooseFields, layoutFields, Fields.noSplit]
  | .cons n o t r, σ, off, h, off' => by
    simp only [chooseFields]
    rw [layoutFields_cons] at h ⊢
    exact ⟨choose_noSplit t _ h.1, chooseFields_noSplit r σ _ h.2⟩
termination_by structural fs => fs
end

theorem noSplit_off : ∀ (fs : Fields) (off off' : Nat), (layoutFields fs off 1).1.noSplit →
    (layoutFields fs off' 1).1.noSplit
  | .nil, _, _, _ => by simp [layoutFields, Fields.noSplit]
  | .cons n o t r, off, off', h => by
    rw [layoutFields_cons] at h ⊢
    exact ⟨h.1, noSplit_off r _ _ h.2⟩

mutual
theorem choose_hasOut : ∀ (t : Ty) (σ : Path → Option Bool), (layout (choose σ t)).hasOut = (layout t).hasOut
  | .vector e l, σ => by
    simp only [choose]
    split
    · rfl
    · split <;> rfl
  | .struct fs _ _, σ => by
    simp only [choose, layout, Ty.hasOut]
    exact chooseFields_hasOut fs σ 0 0
  | .int _ _ _, _ => by simp only [choose]
  | .float _ _, _ => by simp only [choose]
  | .unit, _ => by simp only [choose]
  | .variant _ _, _ => by simp only [choose]
  | .array _ _ _ _, _ => by simp only [choose]
termination_by structural t => t
theorem chooseFields_hasOut : ∀ (fs : Fields) (σ : Path → Option Bool) (off off' : Nat),
    (layoutFields (chooseFields σ fs) off' 1).1.hasOut = (layoutFields fs off 1).1.hasOut
  | .nil, _, _, _ => by simp [chooseFields, layoutFields]
  | .cons n o t r, σ, off, off' => by
    simp only [chooseFields]
    rw [layoutFields_cons, layoutFields_cons]
    simp only [Fields.hasOut]
    rw [choose_hasOut t, chooseFields_hasOut r σ (off + (layout t).size)]
termination_by structural fs => fs
end

/-! ## Short against long -/

theorem pow2_mono : ∀ a b : Nat, a ≤ b → b ≤ 8 → roundUpToPowerOfTwo a ≤ roundUpToPowerOfTwo b := by
  have h : ∀ b, b < 9 → ∀ a, a < 9 → a ≤ b → roundUpToPowerOfTwo a ≤ roundUpToPowerOfTwo b := by decide
  exact fun a b h1 h2 => h b (by omega) a (by omega) h1

theorem lenSize_mono {n m : Nat} (h : n ≤ m) (hm : m < 2 ^ 63) :
    roundUpToPowerOfTwo (divideUp (log2Ceil (n + 1)) 8) ≤ roundUpToPowerOfTwo (divideUp (log2Ceil (m + 1)) 8) := by
  have h1 := log2Ceil_spec (m + 1)
  have h2 := log2Ceil_le (n + 1) (log2Ceil (m + 1)) (by omega)
  have h3 := log2Ceil_le (m + 1) 63 (by omega)
  refine pow2_mono _ _ ?_ ?_ <;> unfold divideUp <;> omega

/-- The short version is at most as large as the long one with one element more. -/
theorem short_le_long {esz n : Nat} {mx : Option Nat} {e : Ty} (hm : ∀ m, mx = some m → n ≤ m ∧ m < 2 ^ 63)
    (hn : n < 2 ^ 63) (hp : 0 < n) :
    (layoutVec esz 1 (bareVec e (some n) n)).size ≤ (layoutVec esz 1 (bareVec e mx 0)).size + esz * n := by
  have hls : roundUpToPowerOfTwo (divideUp (log2Ceil (n + 1)) 8) ≤ (layoutVec esz 1 (bareVec e mx 0)).lenSize := by
    simp only [layoutVec, bareVec]
    cases mx with
    | none => exact (lenSize_ok n hp hn).2.1
    | some m => exact lenSize_mono (hm m rfl).1 (hm m rfl).2
  have hl : (layoutVec esz 1 (bareVec e mx 0)).lenSize + 8 ≤ (layoutVec esz 1 (bareVec e mx 0)).size := by
    simp only [layoutVec, bareVec]
    cases mx <;> simp only [roundUp_one] <;> (repeat rw [Nat.max_def]) <;> (repeat' split) <;> omega
  refine Nat.le_trans ?_ (Nat.add_le_add_right (Nat.le_trans (Nat.add_le_add_right hls 8) hl) _)
  simp only [layoutVec, bareVec, roundUp_one]
  generalize roundUpToPowerOfTwo (divideUp (log2Ceil (n + 1)) 8) = k
  have h1 := Nat.mul_div_le (k + esz * n - (k + 8)) esz
  split
  · rename_i hpos
    have : 0 < k + esz * n - (k + 8) := by
      rcases Nat.eq_zero_or_pos (k + esz * n - (k + 8)) with h | h
      · rw [h, Nat.zero_div] at hpos; omega
      · exact h
    omega
  · omega

/-- The exact size with the short version, the rounded size with the long one. -/
theorem costVec_pair {S : Mem} {f : Nat → Option Nat} {o : Option Nat} {e : Ty} {sl : VecL}
    (h : ∀ i a b, f i = some a → o = some b → a ≤ b) {n k m sa a b esz esz' eal' : Nat} {mx : Option Nat}
    (hd : VecLayout (layoutVec esz 1 (bareVec e (some n) n)) esz 1)
    (hd' : VecLayout (layoutVec esz 1 (bareVec e mx 0)) esz 1) (hs : VecLayout sl esz' eal')
    (hc : VecCompat (layoutVec esz 1 (bareVec e (some n) n)) sl)
    (hc' : VecCompat (layoutVec esz 1 (bareVec e mx 0)) sl)
    (hmx : ∀ q, mx = some q → n < q ∧ q < 2 ^ 63) (hn : n < 2 ^ 63) (hp : 0 < n)
    (hk : k ≤ n) (hm : n < m) (hm' : m < 2 ^ 63)
    (ha : costVec S f (layoutVec esz 1 (bareVec e (some n) n)) sl (some k) sa = some a)
    (hb : costVec S (fun _ => o) (layoutVec esz 1 (bareVec e mx 0)) sl (some m) sa = some b) :
    a ≤ b ∧ (layoutVec esz 1 (bareVec e (some n) n)).size + a ≤
      (layoutVec esz 1 (bareVec e mx 0)).size + b := by
  obtain ⟨x, hx, rfl⟩ := costVec_split hd hs hc (by omega) ha
  obtain ⟨y, hy, rfl⟩ := costVec_split hd' hs hc' hm' hb
  have h1 : copyLength (layoutVec esz 1 (bareVec e (some n) n)) k = k := by
    simp only [copyLength, layoutVec, bareVec]
    split <;> omega
  have h2 : n + 1 ≤ copyLength (layoutVec esz 1 (bareVec e mx 0)) m := by
    simp only [copyLength, layoutVec, bareVec]
    cases mx with
    | none => simp only; omega
    | some q =>
      have := hmx q rfl
      simp only
      split <;> omega
  have h3 : outBytes (layoutVec esz 1 (bareVec e (some n) n)) k = 0 := by
    unfold outBytes
    rw [if_pos]
    simp only [VecL.isInl, layoutVec, bareVec, Bool.and_eq_true]
    exact ⟨decide_eq_true (by omega), decide_eq_true hk⟩
  have h4 : outBytes (layoutVec esz 1 (bareVec e mx 0)) (copyLength (layoutVec esz 1 (bareVec e mx 0)) m) =
      esz * copyLength (layoutVec esz 1 (bareVec e mx 0)) m := by
    unfold outBytes
    rw [if_neg (by simp [VecL.isInl, layoutVec, bareVec])]
    have h5 : (layoutVec esz 1 (bareVec e mx 0)).ppl = 0 := by
      simp only [layoutVec, bareVec, roundUp_one, Nat.mul_zero, Nat.add_zero]
      rw [Nat.sub_eq_zero_of_le (by omega), Nat.zero_div]
    have h6 : (layoutVec esz 1 (bareVec e mx 0)).elemW = esz := by simp only [layoutVec, roundUp_one]
    rw [h5, h6, Nat.sub_zero]
  rw [h1] at hx ⊢
  rw [h3, h4]
  obtain ⟨rfl, hsome⟩ := parts_const hy
  obtain ⟨j, rfl⟩ := Option.isSome_iff_exists.1 (hsome (by omega))
  have h7 := parts_bound (fun i a ha => h i a j ha rfl) hx
  have h8 : k * j ≤ copyLength (layoutVec esz 1 (bareVec e mx 0)) m * j := Nat.mul_le_mul_right j (by omega)
  have h9 := short_le_long (esz := esz) (e := e) (fun q hq => ⟨Nat.le_of_lt (hmx q hq).1, (hmx q hq).2⟩) hn hp
  have h10 : esz * n ≤ esz * copyLength (layoutVec esz 1 (bareVec e mx 0)) m := Nat.mul_le_mul_left esz (by omega)
  simp only [Option.getD_some]
  omega

/-! ## One choice against the other -/

/-- The choices `σ` and `σ'` are those that the exact and the rounded lengths lead to. -/
def Chosen (S : Mem) (t : Ty) (σ σ' : Path → Option Bool) (src : Ty) (sa : Nat) : Prop :=
  ∀ p n, elig t p = some n → ∃ e l a k k', szProj src sa p = some (e, l, a) ∧
    szLength false S e l a = some k ∧ szLength true S e l a = some k' ∧
    σ p = some (decide (k ≤ n)) ∧ σ' p = some (decide (k' ≤ n))

def ChosenF (S : Mem) (fs : Fields) (σ σ' : Path → Option Bool) (sfs : Fields) (sa : Nat) : Prop :=
  ∀ c q n, eligF fs c q = some n → ∃ o sty e l a k k', sfs.find c = some (o, sty) ∧
    szProj sty (sa + o) q = some (e, l, a) ∧
    szLength false S e l a = some k ∧ szLength true S e l a = some k' ∧
    σ (c :: q) = some (decide (k ≤ n)) ∧ σ' (c :: q) = some (decide (k' ≤ n))

theorem elig_ne_nil : ∀ (t : Ty) (n : Nat), elig t [] ≠ some n
  | .vector _ _, n, h => by simp [elig] at h
  | .struct _ _ _, n, h => by simp [elig] at h
  | .int _ _ _, n, h => by simp [elig] at h
  | .float _ _, n, h => by simp [elig] at h
  | .unit, n, h => by simp [elig] at h
  | .variant _ _, n, h => by simp [elig] at h
  | .array _ _ _ _, n, h => by simp [elig] at h

theorem Chosen.fields {S : Mem} {fs : Fields} {sz al sz' al' sa : Nat} {σ σ' : Path → Option Bool} {sfs : Fields}
    (h : Chosen S (.struct fs sz al) σ σ' (.struct sfs sz' al') sa) : ChosenF S fs σ σ' sfs sa := by
  intro c q n hq
  obtain ⟨e, l, a, k, k', h1, h2, h3, h4, h5⟩ := h (c :: q) n (by simpa only [elig] using hq)
  cases q with
  | nil => simp [szProj] at h1
  | cons d p =>
    simp only [szProj] at h1
    cases hf : sfs.find c with
    | none => rw [hf] at h1; cases h1
    | some z =>
      obtain ⟨o, sty⟩ := z
      rw [hf] at h1
      exact ⟨o, sty, e, l, a, k, k', rfl, h1, h2, h3, h4, h5⟩

/-- A type with a vector to split, or the same type for all choices. -/
theorem chosen_or (t : Ty) (hs : Sch t) : (∀ σ, choose σ t = t) ∨ ∃ p n, elig t p = some n := by
  rcases Classical.em (∃ p n, elig t p = some n) with h | h
  · exact Or.inr h
  · refine Or.inl fun σ => choose_fixed t σ hs fun p => ?_
    cases hp : elig t p with
    | none => rfl
    | some n => exact absurd ⟨p, n, hp⟩ h

theorem into_nil (n : Comp) : Path.into [] n = [] := by simp [Path.into, Path.startsWith]

/-- The total size of the fields. -/
def sumSize : Fields → Nat
  | .nil => 0
  | .cons _ _ t r => (layout t).size + sumSize r

theorem layoutFields_sum : ∀ (fs : Fields) (off : Nat), (layoutFields fs off 1).2.1 = off + sumSize fs
  | .nil, off => by simp [layoutFields, sumSize]
  | .cons n o t r, off => by
    rw [layoutFields_cons]
    simp only [sumSize]
    rw [layoutFields_sum r]
    omega

set_option maxHeartbeats 1000000 in
mutual
theorem choose_le (S : Mem) : ∀ (t : Ty) (σ σ' : Path → Option Bool) (src : Ty) (sa a b : Nat), Sch t →
    WF (layout (choose σ t)) → WF (layout (choose σ' t)) → WF src → Tame (layout (choose σ t)) src →
    Tame (layout (choose σ' t)) src → (layout t).noSplit → Chosen S t σ σ' src sa →
    cost false S (layout (choose σ t)) src [] sa = some a →
    cost true S (layout (choose σ' t)) src [] sa = some b →
    a ≤ b ∧ (layout (choose σ t)).size + a ≤ (layout (choose σ' t)).size + b
  | .vector e l, σ, σ', src, sa, a, b, hs, hw, hw', hws, hc, hc', hn, hch, ha, hb => by
    by_cases hf : l.wireMin = 0 ∨ l.maxLen = some l.wireMin
    · have e1 : ∀ τ, choose τ (.vector e l) = .vector e l := fun τ => by simp only [choose, if_pos hf]
      rw [e1] at ha hb hw hc
      rw [e1, e1]
      have := cost_le S _ src [] sa a b hw hws hc hn ha hb
      omega
    · obtain ⟨se, sl, sa', k, k', h1, h2, h3, h4, h5⟩ := hch [['_']] l.wireMin (by simp [elig, hf])
      by_cases hkk : decide (k ≤ l.wireMin) = decide (k' ≤ l.wireMin)
      · have e1 : choose σ' (.vector e l) = choose σ (.vector e l) := by
          simp only [choose, if_neg hf, h4, h5, hkk]
        rw [e1] at hb ⊢
        have := cost_le S _ src [] sa a b hw hws hc (choose_noSplit _ σ hn) ha hb
        omega
      · cases src with
        | vector se' sl' =>
          simp only [szProj, Option.some.injEq, Prod.mk.injEq] at h1
          obtain ⟨rfl, rfl, rfl⟩ := h1
          simp only [Sch] at hs
          have hk : lengthOp S sl' sa = some k := by rw [szLength_false] at h2; exact h2
          -- the rounded length is the maximum
          obtain ⟨m, hm, hmx⟩ : ∃ m, sl'.maxLen = some m ∧ se'.hasMax = true := by
            rcases Classical.em (∃ m, sl'.maxLen = some m ∧ se'.hasMax = true) with h | h
            · exact h
            · exfalso
              have : szLength true S se' sl' sa = lengthOp S sl' sa := by
                unfold szLength
                cases hm : sl'.maxLen with
                | none => rfl
                | some m =>
                  cases hh : se'.hasMax with
                  | false => simp
                  | true => exact absurd ⟨m, hm, hh⟩ h
              rw [this, hk] at h3
              cases h3
              exact hkk rfl
          have hl : szLength true S se' sl' sa = some m := by unfold szLength; rw [hm]; simp [hmx]
          rw [hl] at h3
          cases h3
          have hle := lengthOp_max hk hm
          have hk1 : k ≤ l.wireMin := by
            rcases Nat.lt_or_ge l.wireMin k with h | h
            · rw [decide_eq_false (by omega), decide_eq_false (by omega)] at hkk
              exact absurd rfl hkk
            · exact h
          have hm1 : l.wireMin < k' := by
            rcases Nat.lt_or_ge l.wireMin k' with h | h
            · exact h
            · rw [decide_eq_true hk1, decide_eq_true h] at hkk
              exact absurd rfl hkk
          rw [decide_eq_true hk1] at h4
          rw [decide_eq_false (by omega)] at h5
          simp only [choose, if_neg hf, h4, layout, layout_align] at ha hw hc ⊢
          simp only [choose, if_neg hf, h5, layout, layout_align] at hb hw' hc' ⊢
          simp only [WF, layout_align] at hw hw' hws
          simp only [Tame] at hc hc'
          simp only [layout, Ty.noSplit] at hn
          simp only [cost] at ha hb
          rw [szLength_false, hk] at ha
          rw [hl] at hb
          have hconst : ∀ i, cost true S (layout e) se' [] i = cost true S (layout e) se' [] 0 :=
            fun i => cost_const S S (layout e) se' [] [] i 0 hmx
          have hfun : cost true S (layout e) se' [] = fun _ => cost true S (layout e) se' [] 0 := funext hconst
          rw [hfun] at hb
          simp only [Ty.size]
          refine costVec_pair (fun i x y hx hy => cost_le S (layout e) se' [] i x y hw.1 hws.1 hc.1 hn hx
            ((hconst i).trans hy)) hw.2 hw'.2 hws.2 hc.2 hc'.2 (fun q hq => ?_) hs.2.1 (by omega) hk1 hm1
            (hws.2.max _ hm).2.2.1 ha hb
          have := hs.2.2 q hq
          have hne : q ≠ l.wireMin := fun e => hf (Or.inr (by rw [hq, e]))
          omega
        | _ => simp [szProj] at h1
  | .struct fs sz al, σ, σ', src, sa, a, b, hs, hw, hw', hws, hc, hc', hn, hch, ha, hb => by
    cases src with
    | struct sfs _ _ =>
      have hcf := hch.fields
      simp only [Sch] at hs
      simp only [choose, layout] at ha hb hw hw' hc hc' hn ⊢
      simp only [WF] at hw hw' hws
      simp only [Tame] at hc hc'
      simp only [Ty.noSplit] at hn
      simp only [cost] at ha hb
      simp only [Ty.size]
      obtain ⟨x, y, hx, hy, rfl⟩ := plus_some ha
      obtain ⟨x', y', hx', hy', rfl⟩ := plus_some hb
      have := chooseFields_le S fs σ σ' sfs sa 0 0 x y x' y' hs.1 hs.2 hw.1 hw'.1 hws.1 hws.2.names hc hc' hn hcf
        hx hy hx' hy'
      rw [layoutFields_sum, layoutFields_sum]
      omega
    | unit =>
      rcases chosen_or _ hs with h | ⟨p, n, h⟩
      · rw [h] at ha hb
        rw [h, h]
        rw [cost_unit] at ha hb
        cases ha; cases hb; omega
      · obtain ⟨_, _, _, _, _, h1, _⟩ := hch p n h
        exfalso
        cases p with
        | nil => simp [szProj] at h1
        | cons c q => cases q <;> simp [szProj] at h1
    | _ => simp only [choose, layout, cost] at ha; cases ha
  | .int _ _ _, σ, σ', src, sa, a, b, hs, hw, hw', hws, hc, hc', hn, hch, ha, hb => by
    simp only [choose] at *
    have := cost_le S _ src [] sa a b hw hws hc hn ha hb
    omega
  | .float _ _, σ, σ', src, sa, a, b, hs, hw, hw', hws, hc, hc', hn, hch, ha, hb => by
    simp only [choose] at *
    have := cost_le S _ src [] sa a b hw hws hc hn ha hb
    omega
  | .unit, σ, σ', src, sa, a, b, hs, hw, hw', hws, hc, hc', hn, hch, ha, hb => by
    simp only [choose] at *
    have := cost_le S _ src [] sa a b hw hws hc hn ha hb
    omega
  | .variant _ _, σ, σ', src, sa, a, b, hs, hw, hw', hws, hc, hc', hn, hch, ha, hb => by
    simp only [choose] at *
    have := cost_le S _ src [] sa a b hw hws hc hn ha hb
    omega
  | .array _ _ _ _, σ, σ', src, sa, a, b, hs, hw, hw', hws, hc, hc', hn, hch, ha, hb => by
    simp only [choose] at *
    have := cost_le S _ src [] sa a b hw hws hc hn ha hb
    omega
termination_by structural t => t
theorem chooseFields_le (S : Mem) : ∀ (fs : Fields) (σ σ' : Path → Option Bool) (sfs : Fields)
    (sa off off' a1 a2 b1 b2 : Nat), (fs.toList.map (·.1)).Nodup → SchFields fs →
    WFFields (layoutFields (chooseFields σ fs) off 1).1 → WFFields (layoutFields (chooseFields σ' fs) off' 1).1 →
    WFFields sfs → (sfs.toList.map (·.1)).Nodup →
    TameFields (layoutFields (chooseFields σ fs) off 1).1 sfs →
    TameFields (layoutFields (chooseFields σ' fs) off' 1).1 sfs →
    (layoutFields fs off 1).1.noSplit → ChosenF S fs σ σ' sfs sa →
    costFields false S (layoutFields (chooseFields σ fs) off 1).1 true sfs [] sa = some a1 →
    costFields false S (layoutFields (chooseFields σ fs) off 1).1 false sfs [] sa = some a2 →
    costFields true S (layoutFields (chooseFields σ' fs) off' 1).1 true sfs [] sa = some b1 →
    costFields true S (layoutFields (chooseFields σ' fs) off' 1).1 false sfs [] sa = some b2 →
    a1 ≤ b1 ∧ a2 ≤ b2 ∧
      sumSize (chooseFields σ fs) + a1 + a2 ≤ sumSize (chooseFields σ' fs) + b1 + b2
  | .nil, σ, σ', sfs, sa, off, off', a1, a2, b1, b2, _, _, _, _, _, _, _, _, _, _, h1, h2, h3, h4 => by
    simp only [chooseFields, layoutFields, costFields, Option.some.injEq] at h1 h2 h3 h4
    simp only [chooseFields, sumSize]
    omega
  | .cons n o t r, σ, σ', sfs, sa, off, off', a1, a2, b1, b2, hnd, hs, hw, hw', hws, hnm, hc, hc', hn, hch,
      h1, h2, h3, h4 => by
    simp only [Fields.toList, List.map_cons, List.nodup_cons, List.mem_map, not_exists, not_and] at hnd
    simp only [SchFields] at hs
    simp only [chooseFields] at hw hw' hc hc' h1 h2 h3 h4 ⊢
    rw [layoutFields_cons] at hw hw' hc hc' hn h1 h2 h3 h4
    simp only [WFFields] at hw hw'
    simp only [TameFields] at hc hc'
    simp only [Fields.noSplit] at hn
    simp only [costFields, choose_hasOut, into_nil] at h1 h2 h3 h4
    obtain ⟨x1, y1, e1, f1, rfl⟩ := plus_some h1
    obtain ⟨x2, y2, e2, f2, rfl⟩ := plus_some h2
    obtain ⟨x3, y3, e3, f3, rfl⟩ := plus_some h3
    obtain ⟨x4, y4, e4, f4, rfl⟩ := plus_some h4
    have hrest := chooseFields_le S r σ σ' sfs sa _ _ y1 y2 y3 y4 hnd.2 hs.2 hw.2 hw'.2 hws hnm hc.2 hc'.2
      (noSplit_off r _ _ hn.2) (fun c q k hk => by
        have hne : n ≠ c := by
          intro e; subst e
          rw [eligF_of_mem r n q fun x hx => hnd.1 x hx] at hk; cases hk
        exact hch c q k (by simp [eligF, hne, hk])) f1 f2 f3 f4
    simp only [sumSize]
    cases hf : sfs.findLast n with
    | none =>
      rw [hf] at e1 e2 e3 e4
      simp only [ite_self, Option.some.injEq] at e1 e2 e3 e4
      have hsame : choose (fun p => σ (n :: p)) t = choose (fun p => σ' (n :: p)) t := by
        rcases chosen_or t hs.1 with h | ⟨p, k, h⟩
        · rw [h, h]
        · obtain ⟨_, _, _, _, _, _, _, g, _⟩ := hch n p k (by simp [eligF, h])
          rw [← find_eq_findLast sfs hnm, hf] at g
          cases g
      rw [hsame]
      omega
    | some z =>
      obtain ⟨so, sty⟩ := z
      have hc1 := hc.1
      have hc1' := hc'.1
      rw [hf] at e1 e2 e3 e4 hc1 hc1'
      simp only at e1 e2 e3 e4 hc1 hc1'
      have hwf := findLast_WF sfs n so sty hws hf
      have hcht : Chosen S t (fun p => σ (n :: p)) (fun p => σ' (n :: p)) sty (sa + so) := by
        intro p k hk
        obtain ⟨o', sty', e, l, a, q, q', g1, g2, g3, g4, g5, g6⟩ := hch n p k (by simp [eligF, hk])
        rw [← find_eq_findLast sfs hnm, hf] at g1
        cases g1
        exact ⟨e, l, a, q, q', g2, g3, g4, g5, g6⟩
      have key := fun a b => choose_le S t _ _ sty (sa + so) a b hs.1 hw.1 hw'.1 hwf hc1 hc1' hn.1 hcht
      cases ho : (layout t).hasOut with
      | true =>
        rw [ho] at e1 e2 e3 e4
        simp only [if_true, Bool.true_eq_false, if_false, Option.some.injEq] at e1 e2 e3 e4
        have := key x1 x3 e1 e3
        omega
      | false =>
        rw [ho] at e1 e2 e3 e4
        simp only [if_true, Bool.false_eq_true, if_false, Option.some.injEq] at e1 e2 e3 e4
        have := key x2 x4 e2 e4
        omega
termination_by structural fs => fs
end

end PJ
