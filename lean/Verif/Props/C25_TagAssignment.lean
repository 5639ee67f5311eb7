import Verif.Model.VariantDecl
import Verif.Props.C38_Validation
/-!
# C25: schema tag assignment
-/
namespace PJ

theorem nextFree_sound {reserved : List Nat} {fuel cur t : Nat}
    (h : nextFree reserved fuel cur = some t) (hc : cur < 2 ^ 64) :
    t ∉ reserved ∧ t < 2 ^ 64 := by
  induction fuel generalizing cur with
  | zero => simp [nextFree] at h
  | succ f ih =>
    simp only [nextFree] at h
    split at h
    · exact ih h (Nat.mod_lt _ (by decide))
    · rename_i hn
      simp at h hn
      subst h
      exact ⟨hn, hc⟩

/-- The search visits `cur, cur+1, ...` (mod 2^64); if it fails all visited tags are reserved. -/
theorem nextFree_none {reserved : List Nat} {fuel cur : Nat}
    (h : nextFree reserved fuel cur = none) (hc : cur < 2 ^ 64) :
    ∀ i < fuel, (cur + i) % 2 ^ 64 ∈ reserved := by
  induction fuel generalizing cur with
  | zero => intro i hi; omega
  | succ f ih =>
    simp only [nextFree] at h
    split at h
    · rename_i hm
      simp only [List.contains_iff_mem] at hm
      have ih := ih h (Nat.mod_lt _ (by decide))
      intro i hi
      cases i with
      | zero => rw [Nat.add_zero, Nat.mod_eq_of_lt hc]; exact hm
      | succ i =>
        have := ih i (by omega)
        have e : ((cur + 1) % 2 ^ 64 + i) % 2 ^ 64 = (cur + (i + 1)) % 2 ^ 64 := by omega
        rwa [e] at this
    · simp at h

/-- The tag search terminates unless all 2^64 tags are reserved. -/
theorem nextFree_total (reserved : List Nat) (cur : Nat) (hc : cur < 2 ^ 64)
    (hl : reserved.length < 2 ^ 64) :
    ∃ t, nextFree reserved (reserved.length + 1) cur = some t := by
  cases h : nextFree reserved (reserved.length + 1) cur with
  | some t => exact ⟨t, rfl⟩
  | none =>
    exfalso
    have hall := nextFree_none h hc
    -- the visited tags are pairwise different and more numerous than `reserved`
    let vis := (List.range (reserved.length + 1)).map (fun i => (cur + i) % 2 ^ 64)
    have hnd : vis.Nodup := by
      refine List.pairwise_map.2 ?_
      refine List.Pairwise.imp_of_mem ?_ (List.nodup_range (n := reserved.length + 1))
      intro a b ha hb hab
      simp only [List.mem_range] at ha hb
      omega
    have hsub : vis ⊆ reserved := by
      intro x hx
      obtain ⟨i, hi, rfl⟩ := List.mem_map.1 hx
      exact hall i (List.mem_range.1 hi)
    have := hnd.length_le_of_subset hsub
    simp [vis] at this
    omega

theorem assignTags_spec (ex : Comp → Option Nat) (names : List Comp) (reserved : List Nat)
    (cur : Nat) (out : List (Comp × Nat))
    (h : assignTags ex names reserved cur = some out) (hc : cur < 2 ^ 64)
    (hex : ∀ n t, ex n = some t → t < 2 ^ 64) :
    out.map (·.1) = names ∧
    (∀ p ∈ out, p.2 < 2 ^ 64 ∧ (ex p.1 = some p.2 ∨ (ex p.1 = none ∧ p.2 ∉ reserved))) := by
  induction names generalizing reserved cur out with
  | nil => simp [assignTags] at h; subst h; simp
  | cons n ns ih =>
    simp only [assignTags] at h
    split at h
    · rename_i t ht
      split at h
      · rename_i r hr
        simp at h; subst h
        obtain ⟨h1, h2⟩ := ih _ _ _ hr (Nat.mod_lt _ (by decide))
        refine ⟨by simp [h1], ?_⟩
        intro p hp
        rcases List.mem_cons.1 hp with rfl | hp
        · exact ⟨hex _ _ ht, Or.inl ht⟩
        · exact h2 p hp
      · simp at h
    · rename_i hn
      split at h
      · simp at h
      · rename_i t ht
        split at h
        · rename_i r hr
          simp at h; subst h
          obtain ⟨hs1, hs2⟩ := nextFree_sound ht hc
          obtain ⟨h1, h2⟩ := ih _ _ _ hr hs2
          refine ⟨by simp [h1], ?_⟩
          intro p hp
          rcases List.mem_cons.1 hp with rfl | hp
          · exact ⟨hs2, Or.inr ⟨hn, hs1⟩⟩
          · refine ⟨(h2 p hp).1, ?_⟩
            rcases (h2 p hp).2 with h | ⟨h, h'⟩
            · exact Or.inl h
            · exact Or.inr ⟨h, fun hm => h' (by simp [hm])⟩
        · simp at h

theorem assignTags_nodup (ex : Comp → Option Nat) (names : List Comp) (reserved : List Nat)
    (cur : Nat) (out : List (Comp × Nat))
    (h : assignTags ex names reserved cur = some out) (hc : cur < 2 ^ 64)
    (hex : ∀ n t, ex n = some t → t < 2 ^ 64)
    (hnd : names.Nodup)
    (hinj : ∀ a ∈ names, ∀ b ∈ names, ∀ t, ex a = some t → ex b = some t → a = b)
    (hres : ∀ n ∈ names, ∀ t, ex n = some t → t ∈ reserved) :
    (out.map (·.2)).Nodup := by
  induction names generalizing reserved cur out with
  | nil => simp [assignTags] at h; subst h; simp
  | cons n ns ih =>
    simp only [assignTags] at h
    have hnd' := List.nodup_cons.1 hnd
    split at h
    · rename_i t ht
      split at h
      · rename_i r hr
        simp at h; subst h
        have hs := assignTags_spec ex ns _ _ _ hr (Nat.mod_lt _ (by decide)) hex
        refine List.nodup_cons.2 ⟨?_, ih _ _ _ hr (Nat.mod_lt _ (by decide)) hnd'.2
          (fun a ha b hb => hinj a (by simp [ha]) b (by simp [hb]))
          (fun n hn => hres n (by simp [hn]))⟩
        intro hm
        obtain ⟨p, hp, hpt⟩ := List.mem_map.1 hm
        simp only at hpt
        have hpn : p.1 ∈ ns := by rw [← hs.1]; exact List.mem_map.2 ⟨p, hp, rfl⟩
        rcases (hs.2 p hp).2 with h' | ⟨_, h'⟩
        · rw [hpt] at h'
          have := hinj n (by simp) p.1 (by simp [hpn]) t ht h'
          exact hnd'.1 (this ▸ hpn)
        · exact h' (hpt ▸ hres n (by simp) t ht)
      · simp at h
    · rename_i hn
      split at h
      · simp at h
      · rename_i t ht
        split at h
        · rename_i r hr
          simp at h; subst h
          obtain ⟨hs1, hs2⟩ := nextFree_sound ht hc
          have hs := assignTags_spec ex ns _ _ _ hr hs2 hex
          refine List.nodup_cons.2 ⟨?_, ih _ _ _ hr hs2 hnd'.2
            (fun a ha b hb => hinj a (by simp [ha]) b (by simp [hb]))
            (fun n hn t' h' => by simp [hres n (by simp [hn]) t' h'])⟩
          intro hm
          obtain ⟨p, hp, hpt⟩ := List.mem_map.1 hm
          simp only at hpt
          have hpn : p.1 ∈ ns := by rw [← hs.1]; exact List.mem_map.2 ⟨p, hp, rfl⟩
          rcases (hs.2 p hp).2 with h' | ⟨_, h'⟩
          · exact hs1 (hpt ▸ hres p.1 (by simp [hpn]) _ h')
          · exact h' (by simp [hpt])
        · simp at h

theorem assignTags_total (ex : Comp → Option Nat) (names : List Comp) (reserved : List Nat)
    (cur : Nat) (hc : cur < 2 ^ 64) (hl : reserved.length + names.length < 2 ^ 64) :
    ∃ out, assignTags ex names reserved cur = some out := by
  induction names generalizing reserved cur with
  | nil => exact ⟨[], rfl⟩
  | cons n ns ih =>
    simp only [List.length_cons] at hl
    simp only [assignTags]
    split
    · rename_i t ht
      obtain ⟨r, hr⟩ := ih reserved ((t + 1) % 2 ^ 64) (Nat.mod_lt _ (by decide)) (by omega)
      simp [hr]
    · obtain ⟨t, ht⟩ := nextFree_total reserved cur hc (by omega)
      obtain ⟨r, hr⟩ := ih (t :: reserved) t (nextFree_sound ht hc).2 (by simp; omega)
      simp [ht, hr]

theorem explicitTag_mem {fs : List FieldDecl} {n : Comp} {t : Nat}
    (h : explicitTag fs n = some t) : ∃ f ∈ fs, f.name = n ∧ f.tag = some t := by
  unfold explicitTag at h
  split at h
  · rename_i f hf
    have h1 := List.mem_of_find?_eq_some hf
    have h2 := List.find?_some hf
    simp at h2
    exact ⟨f, by simpa using h1, h2.1, h⟩
  · simp at h

theorem explicitTag_of_mem {fs : List FieldDecl} (hnd : (fs.map (·.name)).Nodup) {f : FieldDecl}
    (hf : f ∈ fs) : explicitTag fs f.name = f.tag := by
  have huniq : ∀ g ∈ fs, g.name = f.name → g = f := by
    intro g hg hn
    by_cases hgf : g = f
    · exact hgf
    · exfalso
      have hp := List.pairwise_map.1 hnd
      rcases List.pairwise_iff_getElem.1 hp with hp
      obtain ⟨i, hi, rfl⟩ := List.getElem_of_mem hg
      obtain ⟨j, hj, rfl⟩ := List.getElem_of_mem hf
      rcases Nat.lt_trichotomy i j with h | h | h
      · exact hp i j hi hj h hn
      · subst h; exact hgf rfl
      · exact hp j i hj hi h hn.symm
  cases ht : f.tag with
  | none =>
    cases he : explicitTag fs f.name with
    | none => rfl
    | some t =>
      obtain ⟨g, hg, hn, hgt⟩ := explicitTag_mem he
      rw [huniq g hg hn, ht] at hgt
      simp at hgt
  | some t =>
    unfold explicitTag
    have : (fs.reverse.find? (fun g => g.name == f.name && g.tag.isSome)) = some f := by
      cases hfind : fs.reverse.find? (fun g => g.name == f.name && g.tag.isSome) with
      | none =>
        have := List.find?_eq_none.1 hfind f (by simpa using hf)
        simp [ht] at this
      | some g =>
        have h1 := List.mem_of_find?_eq_some hfind
        have h2 := List.find?_some hfind
        simp at h1 h2
        rw [huniq g h1 h2.1]
    rw [this]; simpa using ht

private theorem unpack {fs : List FieldDecl} {terms : List (Comp × Nat)} {d : Nat}
    (h : handleVariant fs = .ok terms d) :
    ∃ dflt, collectDefault fs none = some dflt ∧
      assignTags (explicitTag fs) (declOrder fs dflt)
        (fs.filterMap (fun f => explicitTag fs f.name)) 0 = some terms ∧
      validateVariant terms = true ∧ d = declDefaultIdx fs dflt := by
  unfold handleVariant at h
  split at h
  · simp at h
  · rename_i dflt hd
    refine ⟨dflt, hd, ?_⟩
    split at h
    · simp at h
    · split at h
      · rename_i terms' ht hv
        simp only [DeclResult.ok.injEq] at h
        obtain ⟨rfl, rfl⟩ := h
        exact ⟨ht, hv, rfl⟩
      · simp at h

/-- An accepted declaration has pairwise different names and tags, all tags are 64-bit numbers,
and every term with an explicit tag has exactly that tag. -/
theorem C25_accepted (fs : List FieldDecl) (hl : ∀ f ∈ fs, f.Legal)
    (terms : List (Comp × Nat)) (d : Nat) (h : handleVariant fs = .ok terms d) :
    (terms.map (·.1)).Nodup ∧ (terms.map (·.2)).Nodup ∧ (∀ p ∈ terms, p.2 < 2 ^ 64) ∧
    (∀ f ∈ fs, ∀ t, f.tag = some t → (f.name, t) ∈ terms) ∧
    (terms.map (·.1) = fs.map (·.name) ∨ terms.map (·.1) = undefName :: fs.map (·.name)) := by
  obtain ⟨dflt, hd, ht, hv, _⟩ := unpack h
  have hv := (C38_variant terms).1 hv
  have hex : ∀ n t, explicitTag fs n = some t → t < 2 ^ 64 := by
    intro n t hnt
    obtain ⟨f, hf, _, hft⟩ := explicitTag_mem hnt
    exact (hl f hf t hft).2
  have hs := assignTags_spec _ _ _ _ _ ht (by decide) hex
  have hnames : terms.map (·.1) = fs.map (·.name) ∨
      terms.map (·.1) = undefName :: fs.map (·.name) := by
    rw [hs.1]; cases dflt
    · exact Or.inr rfl
    · exact Or.inl rfl
  have hfnd : (fs.map (·.name)).Nodup := by
    rcases hnames with h | h
    · rw [← h]; exact hv.1
    · have := hv.1; rw [h] at this; exact (List.nodup_cons.1 this).2
  refine ⟨hv.1, hv.2, fun p hp => (hs.2 p hp).1, ?_, hnames⟩
  intro f hf t hft
  have hm : f.name ∈ terms.map (·.1) := by
    have : f.name ∈ fs.map (·.name) := List.mem_map.2 ⟨f, hf, rfl⟩
    rcases hnames with h | h
    · rw [h]; exact this
    · rw [h]; exact List.mem_cons_of_mem _ this
  obtain ⟨p, hp, hpn⟩ := List.mem_map.1 hm
  have he := explicitTag_of_mem hfnd hf
  rcases (hs.2 p hp).2 with h' | ⟨h', _⟩
  · rw [hpn, he, hft] at h'
    simp at h'
    rw [h', ← hpn]; exact hp
  · rw [hpn, he, hft] at h'; simp at h'

/-- The default index of an accepted declaration designates the line marked `default`, or the
implicit `undef` term if there is none. -/
theorem C25_default (fs : List FieldDecl) (terms : List (Comp × Nat)) (d : Nat)
    (h : handleVariant fs = .ok terms d) :
    (∃ f ∈ fs, f.isDefault = true ∧ (terms.map (·.1))[d]? = some f.name ∧
      ∀ g ∈ fs, g.isDefault = true → g.name = f.name) ∨
    ((∀ f ∈ fs, f.isDefault = false) ∧ (terms.map (·.1))[d]? = some undefName) := by
  obtain ⟨dflt, hd, ht, hv, hdi⟩ := unpack h
  have hcol : ∀ (fs : List FieldDecl) (acc out : Option Comp), collectDefault fs acc = some out →
      (∀ a, acc = some a → out = some a ∧ ∀ f ∈ fs, f.isDefault = false) ∧
      (acc = none → (out = none ∧ ∀ f ∈ fs, f.isDefault = false) ∨
        ∃ f ∈ fs, f.isDefault = true ∧ out = some f.name ∧
          ∀ g ∈ fs, g.isDefault = true → g.name = f.name) := by
    intro fs
    induction fs with
    | nil => intro acc out h; simp [collectDefault] at h; subst h; simp
    | cons f fs ih =>
      intro acc out h
      simp only [collectDefault] at h
      split at h
      · rename_i hdf
        cases acc with
        | some a => simp at h
        | none =>
          simp only at h
          have := (ih _ _ h).1 _ rfl
          refine ⟨by simp, fun _ => Or.inr ⟨f, by simp, hdf, this.1, ?_⟩⟩
          intro g hg hgd
          rcases List.mem_cons.1 hg with rfl | hg
          · rfl
          · have := this.2 g hg; simp [this] at hgd
      · rename_i hdf
        have := ih _ _ h
        refine ⟨fun a ha => ⟨(this.1 a ha).1, ?_⟩, fun ha => ?_⟩
        · intro g hg
          rcases List.mem_cons.1 hg with rfl | hg
          · simpa using hdf
          · exact (this.1 a ha).2 g hg
        · rcases this.2 ha with ⟨h1, h2⟩ | ⟨g, hg, hgd, ho, hu⟩
          · left
            refine ⟨h1, ?_⟩
            intro g hg
            rcases List.mem_cons.1 hg with rfl | hg
            · simpa using hdf
            · exact h2 g hg
          · right
            refine ⟨g, by simp [hg], hgd, ho, ?_⟩
            intro g' hg' hgd'
            rcases List.mem_cons.1 hg' with rfl | hg'
            · exact absurd hgd' hdf
            · exact hu g' hg' hgd'
  have hmap : ∀ (names : List Comp) (res : List Nat) (cur : Nat) out,
      assignTags (explicitTag fs) names res cur = some out → out.map (·.1) = names := by
    intro names
    induction names with
    | nil => intro res cur out h; simp [assignTags] at h; subst h; rfl
    | cons n ns ih =>
      intro res cur out h
      simp only [assignTags] at h
      split at h
      · split at h
        · rename_i r hr; simp at h; subst h; simp [ih _ _ _ hr]
        · simp at h
      · split at h
        · simp at h
        · split at h
          · rename_i r hr; simp at h; subst h; simp [ih _ _ _ hr]
          · simp at h
  have hn := hmap _ _ _ _ ht
  rcases (hcol fs none dflt hd).2 rfl with ⟨h1, h2⟩ | ⟨f, hf, hfd, ho, hu⟩
  · right
    subst h1
    refine ⟨h2, ?_⟩
    rw [hn, hdi]; rfl
  · left
    subst ho
    refine ⟨f, hf, hfd, ?_, hu⟩
    rw [hn, hdi]
    have hm : f.name ∈ fs.map (·.name) := List.mem_map.2 ⟨f, hf, rfl⟩
    have hlt := List.idxOf_lt_length_iff.2 hm
    simp only [declOrder, declDefaultIdx]
    rw [List.getElem?_eq_getElem hlt, List.getElem_idxOf hlt]

/-- Exactly the sensible declarations are accepted: given fewer than 2^63 lines, the parser never
searches forever, and if names (including the implicit `undef`) are distinct, explicit tags are
distinct and at most one line is marked `default`, the declaration is accepted. -/
theorem C25_complete (fs : List FieldDecl) (hl : ∀ f ∈ fs, f.Legal) (hlen : fs.length < 2 ^ 63)
    (hnames : (fs.map (·.name)).Nodup)
    (hundef : (∀ f ∈ fs, f.isDefault = false) → undefName ∉ fs.map (·.name))
    (htags : (fs.filterMap (·.tag)).Nodup)
    (hdef : (fs.filter (·.isDefault)).length ≤ 1) :
    ∃ terms d, handleVariant fs = .ok terms d := by
  have hcol : ∀ (fs : List FieldDecl) (acc : Option Comp),
      (fs.filter (·.isDefault)).length + (if acc.isSome then 1 else 0) ≤ 1 →
      ∃ out, collectDefault fs acc = some out ∧
        (out = none → ∀ f ∈ fs, f.isDefault = false) := by
    intro fs
    induction fs with
    | nil => intro acc _; exact ⟨acc, rfl, by simp⟩
    | cons f fs ih =>
      intro acc hle
      simp only [collectDefault]
      by_cases hd : f.isDefault = true
      · rw [List.filter_cons_of_pos hd] at hle
        cases acc with
        | some a => simp at hle
        | none =>
          simp only [List.length_cons] at hle
          obtain ⟨o, ho, hnone⟩ := ih (some f.name) (by simp at hle ⊢; exact hle)
          refine ⟨o, by simp [hd, ho], ?_⟩
          intro hon
          exfalso
          subst hon
          have : ∀ (fs : List FieldDecl) a, collectDefault fs (some a) ≠ some none := by
            intro fs
            induction fs with
            | nil => intro a; simp [collectDefault]
            | cons g gs ihg =>
              intro a; simp only [collectDefault]; split
              · simp
              · exact ihg a
          exact this _ _ ho
      · rw [List.filter_cons_of_neg hd] at hle
        obtain ⟨o, ho, hnone⟩ := ih acc hle
        refine ⟨o, by simp [hd, ho], ?_⟩
        intro hon g hg
        rcases List.mem_cons.1 hg with rfl | hg
        · simpa using hd
        · exact hnone hon g hg
  obtain ⟨dflt, hd, hdn⟩ := hcol fs none (by simpa using hdef)
  have hex : ∀ n t, explicitTag fs n = some t → t < 2 ^ 64 := by
    intro n t hnt
    obtain ⟨f, hf, _, hft⟩ := explicitTag_mem hnt
    exact (hl f hf t hft).2
  let order := declOrder fs dflt
  have hord : order.Nodup := by
    cases hdd : dflt with
    | none => simp only [order, hdd, declOrder]; exact List.nodup_cons.2 ⟨hundef (hdn hdd), hnames⟩
    | some x => simp only [order, hdd, declOrder]; exact hnames
  have hordlen : order.length ≤ fs.length + 1 := by
    cases hdd : dflt <;> simp [order, hdd, declOrder]
  have hreslen : (fs.filterMap (fun f => explicitTag fs f.name)).length ≤ fs.length :=
    List.length_filterMap_le _ _
  obtain ⟨out, hout⟩ := assignTags_total (explicitTag fs) order
    (fs.filterMap (fun f => explicitTag fs f.name)) 0 (by decide) (by omega)
  have hs := assignTags_spec _ _ _ _ _ hout (by decide) hex
  have hinj : ∀ a ∈ order, ∀ b ∈ order, ∀ t, explicitTag fs a = some t →
      explicitTag fs b = some t → a = b := by
    intro a _ b _ t hat hbt
    obtain ⟨f, hf, hfn, hft⟩ := explicitTag_mem hat
    obtain ⟨g, hg, hgn, hgt⟩ := explicitTag_mem hbt
    by_cases hfg : f = g
    · rw [← hfn, ← hgn, hfg]
    · exfalso
      obtain ⟨i, hi, rfl⟩ := List.getElem_of_mem hf
      obtain ⟨j, hj, rfl⟩ := List.getElem_of_mem hg
      have hp : fs.Pairwise (fun a b => ∀ x, a.tag = some x → ∀ y, b.tag = some y → x ≠ y) := by
        have := List.pairwise_filterMap.1 htags
        exact this.imp (by intro a b h x hx y hy; exact h x hx y hy)
      have hp := List.pairwise_iff_getElem.1 hp
      rcases Nat.lt_trichotomy i j with h | h | h
      · exact hp i j hi hj h t hft t hgt rfl
      · subst h; exact hfg rfl
      · exact hp j i hj hi h t hgt t hft rfl
  have hres : ∀ n ∈ order, ∀ t, explicitTag fs n = some t →
      t ∈ fs.filterMap (fun f => explicitTag fs f.name) := by
    intro n _ t hnt
    obtain ⟨f, hf, hfn, hft⟩ := explicitTag_mem hnt
    exact List.mem_filterMap.2 ⟨f, hf, by rw [hfn, hnt]⟩
  have htnd := assignTags_nodup _ _ _ _ _ hout (by decide) hex hord hinj hres
  have hv : validateVariant out = true := (C38_variant out).2 ⟨by rw [hs.1]; exact hord, htnd⟩
  refine ⟨out, declDefaultIdx fs dflt, ?_⟩
  unfold handleVariant
  simp only [hd]
  rw [show assignTags (explicitTag fs) (declOrder fs dflt)
    (fs.filterMap (fun f => explicitTag fs f.name)) 0 = some out from hout]
  simp only [hv, if_true]

/-- The full claim "tag 0 is never given to a term other than the implicit `undef`" is false: with
an explicitly marked default term the first term without explicit tag gets the reserved tag 0
(here: `a default; b;`). -/
theorem C25_reserved_zero_violated :
    ∃ fs : List FieldDecl, (∀ f ∈ fs, f.Legal) ∧ ∃ terms d, handleVariant fs = .ok terms d ∧
      (['a'], 0) ∈ terms ∧ (['a'] : Comp) ≠ undefName := by
  refine ⟨[⟨['a'], none, true⟩, ⟨['b'], none, false⟩], ?_,
    [(['a'], 0), (['b'], 1)], 0, by decide, by decide, by decide⟩
  intro f hf t ht; simp at hf; rcases hf with rfl | rfl <;> simp at ht

/-- What does hold: without an explicit default, tag 0 is used for `undef` and for nothing else.
Missing for the full claim: declarations with an explicit `default` (see
`C25_reserved_zero_violated`). -/
theorem C25_reserved_zero_partial (fs : List FieldDecl) (hl : ∀ f ∈ fs, f.Legal)
    (hnd : ∀ f ∈ fs, f.isDefault = false)
    (terms : List (Comp × Nat)) (d : Nat) (h : handleVariant fs = .ok terms d) :
    ∀ p ∈ terms, p.2 = 0 ↔ p.1 = undefName := by
  obtain ⟨dflt, hd, ht, hv, _⟩ := unpack h
  have hdn : dflt = none := by
    have : ∀ (fs : List FieldDecl) acc, (∀ f ∈ fs, f.isDefault = false) →
        collectDefault fs acc = some acc := by
      intro fs
      induction fs with
      | nil => intro acc _; rfl
      | cons f fs ih =>
        intro acc h
        simp only [collectDefault, h f (by simp), Bool.false_eq_true, if_false]
        exact ih acc (fun g hg => h g (by simp [hg]))
    rw [this fs none hnd] at hd
    simpa using hd.symm
  subst hdn
  have hv := (C38_variant terms).1 hv
  have hex : ∀ n t, explicitTag fs n = some t → t < 2 ^ 64 := by
    intro n t hnt
    obtain ⟨f, hf, _, hft⟩ := explicitTag_mem hnt
    exact (hl f hf t hft).2
  have hs := assignTags_spec _ _ _ _ _ ht (by decide) hex
  have hun : undefName ∉ fs.map (·.name) := by
    have := hv.1
    rw [hs.1] at this
    exact (List.nodup_cons.1 this).1
  have hexu : explicitTag fs undefName = none := by
    cases he : explicitTag fs undefName with
    | none => rfl
    | some t =>
      obtain ⟨f, hf, hfn, _⟩ := explicitTag_mem he
      exact absurd (List.mem_map.2 ⟨f, hf, hfn⟩) hun
  have h0 : (undefName, 0) ∈ terms := by
    simp only [declOrder, assignTags, hexu] at ht
    have hnot : ¬ (fs.filterMap (fun f => explicitTag fs f.name)).contains 0 = true := by
      simp only [List.contains_iff_mem, List.mem_filterMap, not_exists, not_and]
      intro f hf he
      obtain ⟨g, hg, _, hgt⟩ := explicitTag_mem he
      exact (hl g hg 0 hgt).1 rfl
    simp only [nextFree] at ht
    rw [if_neg hnot] at ht
    simp only at ht
    split at ht
    · simp at ht; subst ht; simp
    · simp at ht
  intro p hp
  constructor
  · intro hp0
    by_cases e : p = (undefName, 0)
    · rw [e]
    · exfalso
      obtain ⟨i, hi, rfl⟩ := List.getElem_of_mem hp
      obtain ⟨j, hj, hj'⟩ := List.getElem_of_mem h0
      have hpw := List.pairwise_iff_getElem.1 (List.pairwise_map.1 hv.2)
      rcases Nat.lt_trichotomy i j with h | h | h
      · exact hpw i j hi hj h (by rw [hj']; exact hp0)
      · subst h; exact e hj'
      · exact hpw j i hj hi h (by rw [hj']; exact hp0.symm)
  · intro hpn
    by_cases e : p = (undefName, 0)
    · rw [e]
    · exfalso
      obtain ⟨i, hi, rfl⟩ := List.getElem_of_mem hp
      obtain ⟨j, hj, hj'⟩ := List.getElem_of_mem h0
      have hpw := List.pairwise_iff_getElem.1 (List.pairwise_map.1 hv.1)
      rcases Nat.lt_trichotomy i j with h | h | h
      · exact hpw i j hi hj h (by rw [hj']; exact hpn)
      · subst h; exact e hj'
      · exact hpw j i hj hi h (by rw [hj']; exact hpn.symm)

/-- Non-vacuity: a mixture of explicit and implicit tags. -/
example : handleVariant [⟨['a'], some 2, false⟩, ⟨['b'], none, false⟩, ⟨['c'], some 1, false⟩,
    ⟨['d'], none, false⟩]
    = .ok [(undefName, 0), (['a'], 2), (['b'], 3), (['c'], 1), (['d'], 4)] 0 := by decide

end PJ
