import Verif.Lemmas.Fits
import Verif.Lemmas.PlanLayout
/-!
# Planning keeps the values
-/
namespace PJ

/-! ## Layout, outlining, offsets -/

mutual
theorem layout_fits : ∀ (t : Ty) (v : Val), Fits t v → Fits (layout t) v
  | .int w s al, v, h => h
  | .float w al, v, h => h
  | .unit, v, h => h
  | .struct fs _ _, v, h => by
    obtain ⟨vs, rfl, h⟩ := h
    exact ⟨vs, rfl, layoutFields_fits fs 0 vs h⟩
  | .variant ts l, v, h => by
    obtain ⟨c, p, rfl, h1, h2⟩ := h
    refine ⟨c, p, rfl, layoutTerms_fits ts c p h1, ?_⟩
    rw [layoutTerms_toList, List.filter_map, List.length_map]
    exact h2
  | .array e n _ _, v, h => by
    obtain ⟨xs, rfl, h1, h2⟩ := h
    exact ⟨xs, rfl, h1, fun x hx => layout_fits e x (h2 x hx)⟩
  | .vector e l, v, h => by
    obtain ⟨xs, rfl, h0, h1, h2⟩ := h
    exact ⟨xs, rfl, h0, h1, fun x hx => layout_fits e x (h2 x hx)⟩
termination_by structural t => t
theorem layoutFields_fits : ∀ (fs : Fields) (off : Nat) (vs : List (Comp × Val)), FitsFields fs vs →
    FitsFields (layoutFields fs off 1).1 vs
  | .nil, off, vs, h => by simpa [layoutFields] using h
  | .cons c o t r, off, vs, h => by
    obtain ⟨v, rest, rfl, h1, h2⟩ := h
    rw [layoutFields_cons]
    exact ⟨v, rest, rfl, layout_fits t v h1, layoutFields_fits r _ rest h2⟩
termination_by structural fs => fs
theorem layoutTerms_fits : ∀ (ts : Terms) (c : Comp) (p : Val), FitsTerms ts c p →
    FitsTerms (layoutTerms ts) c p
  | .nil, _, _, h => h
  | .cons _ _ _ t r, c, p, h =>
    ⟨fun hn => ⟨(h.1 hn).1, fun ha => layout_fits t p ((h.1 hn).2 ha)⟩, layoutTerms_fits r c p h.2⟩
termination_by structural ts => ts
end

mutual
theorem tryOutline_fits : ∀ (t : Ty) (path : Path) (t' : Ty) (v : Val), tryOutline t path = some t' →
    Fits t v → Fits t' v
  | .variant ts l, path, t', v, ho, h => by
    simp only [tryOutline] at ho
    split at ho
    · cases ho
    · cases ho; exact h
  | .struct fs sz al, path, t', v, ho, h => by
    simp only [tryOutline] at ho
    split at ho
    · cases ho
    · split at ho
      · rename_i fs' hfs
        cases ho
        obtain ⟨vs, rfl, h⟩ := h
        exact ⟨vs, rfl, tryOutlineFields_fits fs path fs' vs hfs h⟩
      · cases ho
  | .int _ _ _, path, t', v, ho, _ => by simp [tryOutline] at ho
  | .float _ _, path, t', v, ho, _ => by simp [tryOutline] at ho
  | .unit, path, t', v, ho, _ => by simp [tryOutline] at ho
  | .array _ _ _ _, path, t', v, ho, _ => by simp [tryOutline] at ho
  | .vector _ _, path, t', v, ho, _ => by simp [tryOutline] at ho
termination_by structural t => t
theorem tryOutlineFields_fits : ∀ (fs : Fields) (path : Path) (fs' : Fields) (vs : List (Comp × Val)),
    tryOutlineFields fs path = some fs' → FitsFields fs vs → FitsFields fs' vs
  | .nil, path, fs', vs, ho, h => by simp [tryOutlineFields] at ho
  | .cons c o t r, path, fs', vs, ho, h => by
    obtain ⟨v, rest, rfl, h1, h2⟩ := h
    simp only [tryOutlineFields] at ho
    split at ho
    · rename_i t' ht
      cases ho
      exact ⟨v, rest, rfl, tryOutline_fits t _ t' v ht h1, h2⟩
    · split at ho
      · rename_i r' hr
        cases ho
        exact ⟨v, rest, rfl, h1, tryOutlineFields_fits r path r' rest hr h2⟩
      · cases ho
termination_by structural fs => fs
end

mutual
theorem setOut_fits (d : Nat) : ∀ (t : Ty) (v : Val), Fits t v → Fits (setOut d t) v
  | .variant ts l, v, h => by
    simp only [setOut]
    split <;> exact h
  | .struct fs sz al, v, h => by
    obtain ⟨vs, rfl, h⟩ := h
    exact ⟨vs, rfl, setOutFields_fits d fs vs h⟩
  | .int _ _ _, v, h => h
  | .float _ _, v, h => h
  | .unit, v, h => h
  | .array _ _ _ _, v, h => h
  | .vector _ _, v, h => h
termination_by structural t => t
theorem setOutFields_fits (d : Nat) : ∀ (fs : Fields) (vs : List (Comp × Val)), FitsFields fs vs →
    FitsFields (setOutFields d fs) vs
  | .nil, vs, h => h
  | .cons c o t r, vs, h => by
    obtain ⟨v, rest, rfl, h1, h2⟩ := h
    exact ⟨v, rest, rfl, setOut_fits d t v h1, setOutFields_fits d r rest h2⟩
termination_by structural fs => fs
end

/-! ## Hoisting -/

mutual
/-- The part of `Fits` that finds the vectors, without the limits on their lengths. -/
def Shp : Ty → Val → Prop
  | .struct fs _ _, v => ∃ vs, v = .struct vs ∧ ShpFields fs vs
  | .vector _ _, v => ∃ xs, v = .vec xs
  | _, _ => True
def ShpFields : Fields → List (Comp × Val) → Prop
  | .nil, vs => vs = []
  | .cons c _ t r, vs => ∃ v rest, vs = (c, v) :: rest ∧ Shp t v ∧ ShpFields r rest
end

mutual
theorem fits_shp : ∀ (t : Ty) (v : Val), Fits t v → Shp t v
  | .struct fs _ _, v, h => by
    obtain ⟨vs, rfl, h⟩ := h
    exact ⟨vs, rfl, fits_shpFields fs vs h⟩
  | .vector _ _, v, h => by
    obtain ⟨xs, rfl, _⟩ := h
    exact ⟨xs, rfl⟩
  | .int _ _ _, v, h => trivial
  | .float _ _, v, h => trivial
  | .unit, v, h => trivial
  | .array _ _ _ _, v, h => trivial
  | .variant _ _, v, h => trivial
termination_by structural t => t
theorem fits_shpFields : ∀ (fs : Fields) (vs : List (Comp × Val)), FitsFields fs vs → ShpFields fs vs
  | .nil, vs, h => h
  | .cons c o t r, vs, h => by
    obtain ⟨v, rest, rfl, h1, h2⟩ := h
    exact ⟨v, rest, rfl, fits_shp t v h1, fits_shpFields r rest h2⟩
termination_by structural fs => fs
end

theorem ShpFields_keys : ∀ {fs : Fields} {vs : List (Comp × Val)}, ShpFields fs vs →
    vs.map (·.1) = fs.toList.map (·.1)
  | .nil, vs, h => by simp only [ShpFields] at h; subst h; rfl
  | .cons c o t r, vs, h => by
    obtain ⟨v, rest, rfl, _, h2⟩ := h
    simp [Fields.toList, ShpFields_keys h2]

/-- What a split does to a value: the length is found at the path, and the short or the long version takes
the value. -/
structure SplitVal (t : Ty) (s : Split) (v : Val) : Prop where
  len : ∃ n, lenAt s.path v = some n
  shpS : Shp s.short v
  shpL : Shp s.long v
  short : ∀ n, lenAt s.path v = some n → n ≤ s.len → Fits t v → Fits s.short v
  long : Fits t v → Fits s.long v

theorem splitFields_path : ∀ {fs : Fields} {n : Nat} {a b : Fields} {path : Path},
    splitFields fs = some (n, a, b, path) → ∃ c p, path = c :: p
  | .nil, n, a, b, path, h => by simp [splitFields] at h
  | .cons c o t r, n, a, b, path, h => by
    simp only [splitFields] at h
    split at h
    · cases h; exact ⟨_, _, rfl⟩
    · split at h
      · rename_i h2
        cases h
        exact splitFields_path h2
      · cases h

theorem split_path {t : Ty} {s : Split} (h : splitFirst t = some s) : ∃ c p, s.path = c :: p := by
  cases t with
  | vector e l =>
    simp only [splitFirst] at h
    split at h
    · cases h
    · cases h; exact ⟨_, _, rfl⟩
  | struct fs sz al =>
    simp only [splitFirst] at h
    split at h
    · rename_i n a b path hs
      cases h
      exact splitFields_path hs
    · cases h
  | _ => simp [splitFirst] at h

mutual
theorem split_val : ∀ (t : Ty) (s : Split) (v : Val), splitFirst t = some s → Sch t → Shp t v → SplitVal t s v
  | .vector e l, s, v, hs, _, h => by
    simp only [splitFirst] at hs
    split at hs
    · cases hs
    · cases hs
      obtain ⟨xs, rfl⟩ := h
      refine ⟨⟨xs.length, rfl⟩, ⟨xs, rfl⟩, ⟨xs, rfl⟩, fun n hn hle hf => ?_, fun hf => ?_⟩
      · obtain ⟨ys, he, h1, h2, h3⟩ := hf
        cases he
        simp only [lenAt, Option.some.injEq] at hn
        refine ⟨xs, rfl, h1, fun m hm => ?_, h3⟩
        simp only [bareVec, Option.some.injEq] at hm
        simp only at hle
        omega
      · obtain ⟨ys, he, h1, h2, h3⟩ := hf
        cases he
        exact ⟨xs, rfl, h1, h2, h3⟩
  | .struct fs sz al, s, v, hs, hsch, h => by
    simp only [splitFirst] at hs
    split at hs
    · rename_i n short long path hf
      cases hs
      simp only [Sch] at hsch
      obtain ⟨vs, rfl, h⟩ := h
      obtain ⟨h1, h2, h3, h4, h5⟩ := split_valFields fs n short long path vs [] hf hsch.2 h
        (by rw [List.nil_append, ShpFields_keys h]; exact hsch.1)
      refine ⟨h1, ⟨vs, rfl, h2⟩, ⟨vs, rfl, h3⟩, fun n' hn hle hf => ?_, fun hf => ?_⟩
      · obtain ⟨ys, he, hf⟩ := hf
        cases he
        exact ⟨vs, rfl, h4 n' hn hle hf⟩
      · obtain ⟨ys, he, hf⟩ := hf
        cases he
        exact ⟨vs, rfl, h5 hf⟩
    · cases hs
  | .int _ _ _, s, v, hs, _, h => by simp [splitFirst] at hs
  | .float _ _, s, v, hs, _, h => by simp [splitFirst] at hs
  | .unit, s, v, hs, _, h => by simp [splitFirst] at hs
  | .array _ _ _ _, s, v, hs, _, h => by simp [splitFirst] at hs
  | .variant _ _, s, v, hs, _, h => by simp [splitFirst] at hs
termination_by structural t => t
theorem split_valFields : ∀ (fs : Fields) (n : Nat) (short long : Fields) (path : Path)
    (vs pre : List (Comp × Val)), splitFields fs = some (n, short, long, path) → SchFields fs →
    ShpFields fs vs → ((pre ++ vs).map (·.1)).Nodup →
    (∃ k, lenAt path (.struct (pre ++ vs)) = some k) ∧ ShpFields short vs ∧ ShpFields long vs ∧
    (∀ k, lenAt path (.struct (pre ++ vs)) = some k → k ≤ n → FitsFields fs vs → FitsFields short vs) ∧
    (FitsFields fs vs → FitsFields long vs)
  | .nil, n, short, long, path, vs, pre, hs, _, h, hn => by simp [splitFields] at hs
  | .cons c o t r, n, short, long, path, vs, pre, hs, hsch, h, hn => by
    obtain ⟨v, rest, rfl, h1, h2⟩ := h
    simp only [splitFields] at hs
    split at hs
    · rename_i s ht
      cases hs
      have hlk : (pre ++ (c, v) :: rest).lookup c = some v := by
        rw [List.lookup_append]
        have : pre.lookup c = none := by
          rw [List.lookup_eq_none_iff]
          intro x hx
          rw [List.map_append, List.nodup_append] at hn
          have := hn.2.2 x.1 (List.mem_map.2 ⟨x, hx, rfl⟩) c (by simp)
          simpa using fun e => this e.symm
        simp [this]
      have hv := split_val t s v ht hsch.1 h1
      obtain ⟨c', p', hp⟩ := split_path ht
      have hlen : lenAt (Path.expand s.path c) (.struct (pre ++ (c, v) :: rest)) = lenAt s.path v := by
        rw [hp]
        simp only [Path.expand, lenAt, hlk]
      rw [hlen]
      refine ⟨hv.len, ⟨v, rest, rfl, hv.shpS, h2⟩, ⟨v, rest, rfl, hv.shpL, h2⟩, fun k hk hle hf => ?_,
        fun hf => ?_⟩
      · obtain ⟨v', rest', he, f1, f2⟩ := hf
        cases he
        exact ⟨v, rest, rfl, hv.short k hk hle f1, f2⟩
      · obtain ⟨v', rest', he, f1, f2⟩ := hf
        cases he
        exact ⟨v, rest, rfl, hv.long f1, f2⟩
    · split at hs
      · rename_i k' a b q hr
        cases hs
        have := split_valFields r _ _ _ _ rest (pre ++ [(c, v)]) hr hsch.2 h2 (by simpa using hn)
        rw [List.append_assoc, List.singleton_append] at this
        obtain ⟨g1, g2, g3, g4, g5⟩ := this
        refine ⟨g1, ⟨v, rest, rfl, h1, g2⟩, ⟨v, rest, rfl, h1, g3⟩, fun k hk hle hf => ?_, fun hf => ?_⟩
        · obtain ⟨v', rest', he, f1, f2⟩ := hf
          cases he
          exact ⟨v, rest, rfl, f1, g4 k hk hle f2⟩
        · obtain ⟨v', rest', he, f1, f2⟩ := hf
          cases he
          exact ⟨v, rest, rfl, f1, g5 f2⟩
      · cases hs
termination_by structural fs => fs
end

end PJ
