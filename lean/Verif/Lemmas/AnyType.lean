import Verif.Lemmas.AnyBare
import Verif.Lemmas.PlanOut
import Verif.Lemmas.AnyPool
/-!
# Types which differ in layout and attributes only
-/
namespace PJ

mutual
/-- No term has attributes. -/
def NoAttrs : Ty → Prop
  | .struct fs _ _ => NoAttrsFields fs
  | .variant ts _ => NoAttrsTerms ts
  | .array e _ _ _ => NoAttrs e
  | .vector e _ => NoAttrs e
  | _ => True
def NoAttrsFields : Fields → Prop
  | .nil => True
  | .cons _ _ t r => NoAttrs t ∧ NoAttrsFields r
def NoAttrsTerms : Terms → Prop
  | .nil => True
  | .cons _ _ as t r => as = [] ∧ NoAttrs t ∧ NoAttrsTerms r
end

theorem bare_names {ts hts : Terms} (h : ts.bare = hts.bare) :
    ts.toList.map (·.name) = hts.toList.map (·.name) := by
  have hl := congrArg (fun l => l.toList.map (·.name)) h
  simp only [Terms.bare_toList, List.map_map] at hl
  exact hl

theorem bare_tags {ts hts : Terms} (h : ts.bare = hts.bare) : ts.tagsOf = hts.tagsOf := by
  have hl := congrArg (fun l => l.toList.map fun t => (t.name, t.tag)) h
  simp only [Terms.bare_toList, List.map_map] at hl
  exact hl

mutual
theorem plain_of_bare : ∀ (h t : Ty), t.bare = h.bare → NoAttrs t → Plain h → Plain t
  | .int _ _ _, t, he, _, _ => by cases t <;> simp only [Ty.bare, reduceCtorEq] at he; trivial
  | .float _ _, t, he, _, _ => by cases t <;> simp only [Ty.bare, reduceCtorEq] at he; trivial
  | .unit, t, he, _, _ => by cases t <;> simp only [Ty.bare, reduceCtorEq] at he; trivial
  | .struct hfs _ _, t, he, hn, hp => by
    cases t <;> simp only [Ty.bare, reduceCtorEq, Ty.struct.injEq, and_true] at he
    exact plainFields_of_bare hfs _ he hn hp
  | .variant hts _, t, he, hn, hp => by
    cases t <;> simp only [Ty.bare, reduceCtorEq, Ty.variant.injEq, and_true] at he
    exact ⟨by rw [bare_names he]; exact hp.1, plainTerms_of_bare hts _ he hn hp.2⟩
  | .array e _ _ _, t, he, hn, hp => by
    cases t <;> simp only [Ty.bare, reduceCtorEq, Ty.array.injEq, and_true] at he
    simp only [Plain] at hp ⊢
    exact plain_of_bare e _ he.1 hn hp
  | .vector e _, t, he, hn, hp => by
    cases t <;> simp only [Ty.bare, reduceCtorEq, Ty.vector.injEq] at he
    simp only [Plain] at hp ⊢
    exact plain_of_bare e _ he.1 hn hp
termination_by structural h => h
theorem plainFields_of_bare : ∀ (hfs fs : Fields), fs.bare = hfs.bare → NoAttrsFields fs → PlainFields hfs →
    PlainFields fs
  | .nil, fs, he, _, _ => by cases fs <;> simp only [Fields.bare, reduceCtorEq] at he; trivial
  | .cons _ _ h hr, fs, he, hn, hp => by
    cases fs <;> simp only [Fields.bare, reduceCtorEq, Fields.cons.injEq, true_and] at he
    exact ⟨plain_of_bare h _ he.2.1 hn.1 hp.1, plainFields_of_bare hr _ he.2.2 hn.2 hp.2⟩
termination_by structural hfs => hfs
theorem plainTerms_of_bare : ∀ (hts ts : Terms), ts.bare = hts.bare → NoAttrsTerms ts → PlainTerms hts →
    PlainTerms ts
  | .nil, ts, he, _, _ => by cases ts <;> simp only [Terms.bare, reduceCtorEq] at he; trivial
  | .cons _ _ _ h hr, ts, he, hn, hp => by
    cases ts <;> simp only [Terms.bare, reduceCtorEq, Terms.cons.injEq, true_and] at he
    exact ⟨hn.1, plain_of_bare h _ he.2.2.1 hn.2.1 hp.2.1, plainTerms_of_bare hr _ he.2.2.2 hn.2.2 hp.2.2⟩
termination_by structural hts => hts
end

theorem filter_one {α} {p : α → Bool} {l : List α} (h : (l.filter p).length = 1) : ∃ x ∈ l, p x = true := by
  cases hf : l.filter p with
  | nil => rw [hf] at h; cases h
  | cons x r =>
    have : x ∈ l.filter p := by rw [hf]; simp
    exact ⟨x, (List.mem_filter.1 this).1, (List.mem_filter.1 this).2⟩

mutual
theorem fits_bare : ∀ (h t : Ty) (v : Val), t.bare = h.bare → NoAttrs t → Plain h → Fits h v → Fits t v
  | .int _ _ _, t, v, he, _, _, hf => by
    cases t <;> simp only [Ty.bare, reduceCtorEq, Ty.int.injEq, and_true] at he
    obtain ⟨rfl, rfl⟩ := he; exact hf
  | .float _ _, t, v, he, _, _, hf => by
    cases t <;> simp only [Ty.bare, reduceCtorEq, Ty.float.injEq, and_true] at he
    subst he; exact hf
  | .unit, t, v, he, _, _, hf => by cases t <;> simp only [Ty.bare, reduceCtorEq] at he; exact hf
  | .struct hfs _ _, t, v, he, hn, hp, hf => by
    cases t <;> simp only [Ty.bare, reduceCtorEq, Ty.struct.injEq, and_true] at he
    obtain ⟨vs, rfl, hf⟩ := hf
    exact ⟨vs, rfl, fitsFields_bare hfs _ vs he hn hp hf⟩
  | .variant hts hl, t, v, he, hn, hp, hf => by
    have hpl := plain_of_bare (.variant hts hl) t he hn hp
    cases t <;> simp only [Ty.bare, reduceCtorEq, Ty.variant.injEq, and_true] at he
    obtain ⟨c, p, rfl, h1, h2⟩ := hf
    refine ⟨c, p, rfl, fitsTerms_bare hts _ c p he hn hp.2 h1, ?_⟩
    obtain ⟨x, hx, hc⟩ := filter_one h2
    have hc := (of_decide_eq_true hc).1
    have hm : c ∈ hts.toList.map (·.name) := List.mem_map.2 ⟨x, hx, hc⟩
    rw [← bare_names he] at hm
    obtain ⟨u, hu, hun⟩ := List.mem_map.1 hm
    exact filter_name hpl.1 (fun u hu => ((PlainTerms_iff.1 hpl.2) u hu).1) u hu hun p
  | .array e _ _ _, t, v, he, hn, hp, hf => by
    cases t <;> simp only [Ty.bare, reduceCtorEq, Ty.array.injEq, and_true] at he
    obtain ⟨xs, rfl, h1, h2⟩ := hf
    exact ⟨xs, rfl, by rw [h1, he.2], fun x hx => fits_bare e _ x he.1 hn hp (h2 x hx)⟩
  | .vector e _, t, v, he, hn, hp, hf => by
    cases t <;> simp only [Ty.bare, reduceCtorEq, Ty.vector.injEq] at he
    obtain ⟨xs, rfl, h1, h2, h3⟩ := hf
    have hm := congrArg VecL.maxLen he.2
    simp only [bareVecL] at hm
    exact ⟨xs, rfl, h1, fun m hm' => h2 m (by rw [← hm]; exact hm'), fun x hx => fits_bare e _ x he.1 hn hp (h3 x hx)⟩
termination_by structural h => h
theorem fitsFields_bare : ∀ (hfs fs : Fields) (vs : List (Comp × Val)), fs.bare = hfs.bare → NoAttrsFields fs →
    PlainFields hfs → FitsFields hfs vs → FitsFields fs vs
  | .nil, fs, vs, he, _, _, hf => by cases fs <;> simp only [Fields.bare, reduceCtorEq] at he; exact hf
  | .cons _ _ h hr, fs, vs, he, hn, hp, hf => by
    cases fs <;> simp only [Fields.bare, reduceCtorEq, Fields.cons.injEq, true_and] at he
    obtain ⟨rfl, he⟩ := he
    obtain ⟨v, rest, rfl, h1, h2⟩ := hf
    exact ⟨v, rest, rfl, fits_bare h _ v he.1 hn.1 hp.1 h1, fitsFields_bare hr _ rest he.2 hn.2 hp.2 h2⟩
termination_by structural hfs => hfs
theorem fitsTerms_bare : ∀ (hts ts : Terms) (c : Comp) (p : Val), ts.bare = hts.bare → NoAttrsTerms ts →
    PlainTerms hts → FitsTerms hts c p → FitsTerms ts c p
  | .nil, ts, _, _, he, _, _, _ => by cases ts <;> simp only [Terms.bare, reduceCtorEq] at he; trivial
  | .cons n _ as h hr, ts, c, p, he, hn, hp, hf => by
    cases ts <;> simp only [Terms.bare, reduceCtorEq, Terms.cons.injEq, true_and] at he
    obtain ⟨rfl, _, he1, he2⟩ := he
    simp only [NoAttrsTerms] at hn
    simp only [PlainTerms] at hp
    obtain ⟨rfl, hn1, hn2⟩ := hn
    obtain ⟨rfl, hp1, hp2⟩ := hp
    refine ⟨fun hc => ⟨rfl, fun _ => fits_bare h _ p he1 hn1 hp1 ((hf.1 hc).2 rfl)⟩, ?_⟩
    exact fitsTerms_bare hr _ c p he2 hn2 hp2 hf.2
termination_by structural hts => hts
end

theorem mapAll_congr {α β} {f g : α → Option β} : ∀ {l : List α}, (∀ x ∈ l, f x = g x) → mapAll f l = mapAll g l
  | [], _ => rfl
  | x :: xs, h => by
    simp only [mapAll, h x (by simp), mapAll_congr (l := xs) fun y hy => h y (by simp [hy])]

theorem bare_isChar (t : Ty) : t.bare.isChar = t.isChar := by cases t <;> rfl

theorem bare_enum : ∀ (ts : Terms), ts.bare.enum = ts.enum
  | .nil => rfl
  | .cons _ _ _ t r => by simp only [Terms.bare, Terms.enum, bare_isUnit, bare_enum r]

mutual
theorem view_bare : ∀ (t : Ty) (v : Val), view t.bare v = view t v
  | .int _ _ _, v => by cases v <;> simp [view, Ty.bare]
  | .float _ _, v => by cases v <;> simp [view, Ty.bare]
  | .unit, v => by cases v <;> simp [view, Ty.bare]
  | .struct fs _ _, v => by cases v <;> simp [view, Ty.bare, viewFields_bare fs]
  | .variant ts _, v => by cases v <;> simp [view, Ty.bare, viewTerm_bare, bare_enum]
  | .array e _ _ _, v => by
    cases v with
    | arr xs => simp only [view, Ty.bare, mapAll_congr (l := xs) fun x _ => view_bare e x, bare_isChar]
    | _ => simp [view, Ty.bare]
  | .vector e _, v => by
    cases v with
    | vec xs => simp only [view, Ty.bare, mapAll_congr (l := xs) fun x _ => view_bare e x, bare_isChar]
    | _ => simp [view, Ty.bare]
termination_by structural t => t
theorem viewFields_bare : ∀ (fs : Fields) (vs : List (Comp × Val)), viewFields fs.bare vs = viewFields fs vs
  | .nil, [] => rfl
  | .nil, _ :: _ => rfl
  | .cons _ _ _ _, [] => rfl
  | .cons _ _ t r, (_, v) :: vs => by
    simp only [Fields.bare, viewFields, view_bare t v, viewFields_bare r vs]
termination_by structural fs => fs
theorem viewTerm_bare : ∀ (ts : Terms) (enum : Bool) (c : Comp) (p : Val),
    viewTerm enum ts.bare c p = viewTerm enum ts c p
  | .nil, _, _, _ => rfl
  | .cons _ _ _ t r, enum, c, p => by simp only [Terms.bare, viewTerm, view_bare t p, viewTerm_bare r enum c p]
termination_by structural ts => ts
end

/-! ## Compatibility -/

theorem vecCompat_bare {hl dl l : VecL} {esz eal : Nat} (hm : dl.maxLen = hl.maxLen) (hr : VecRel hl l) (hq : Laid l)
    (hw : VecLayout l esz eal) : VecCompat dl l := by
  refine Or.inl ?_
  have h1 := hw.ppl
  unfold Laid at hq
  obtain ⟨r1, r2, r3, _⟩ := hr
  unfold VecL.maxBound
  rw [hm]
  cases hm : hl.maxLen with
  | none => simp only; omega
  | some m => have := r1 m hm; simp only; omega

mutual
/-- A type which is the host type apart from its layout can be decoded from the wire. -/
theorem bare_compat : ∀ (h t w : Ty), t.bare = h.bare → Plain h → Rel Laid h w → WF w → Compat t w
  | .int _ _ _, t, w, he, _, _, _ => by
    cases t <;> simp only [Ty.bare, reduceCtorEq] at he; simp [Compat]
  | .float _ _, t, w, he, _, _, _ => by
    cases t <;> simp only [Ty.bare, reduceCtorEq] at he; simp [Compat]
  | .unit, t, w, he, _, _, _ => by
    cases t <;> simp only [Ty.bare, reduceCtorEq] at he; simp [Compat]
  | .struct hfs _ _, t, w, he, hp, hr, hw => by
    cases t <;> simp only [Ty.bare, reduceCtorEq, Ty.struct.injEq, and_true] at he
    obtain ⟨wfs, sz, al, rfl, hr⟩ := hr
    simp only [Compat]
    exact bareFields_compat hfs _ wfs wfs he hp hr hw.1 (fun c o t ht => findLast_mem hw.2.names ht)
  | .variant hts _, t, w, he, hp, hr, hw => by
    cases t with
    | variant ts l =>
      simp only [Ty.bare, Ty.variant.injEq, and_true] at he
      obtain ⟨wts, wl, rfl, h1, h2, h3, h4, _⟩ := hr
      simp only [Plain] at hp
      simp only [WF] at hw
      have htr : TermsRel Laid hts wts.toList := ⟨h1, fun a ha => hasName_iff.1 (h2 a ha), h3, h4⟩
      have hn := bare_names he
      simp only [Compat]
      refine ⟨fun hf => ?_, fun u hu => ?_⟩
      · have he' : wts.isEnum = true := by
          simp only [enumFast, Bool.and_eq_true] at hf; exact hf.1.2
        have ht := enum_tags hw.1 htr he'
        have hn' : (ts.toList.map (·.name)).Nodup := by rw [hn]; exact hp.1
        exact ⟨hn', by rw [names_of_tags ht]; exact hp.1,
          Or.inl (exactMatch_same (ht.trans (bare_tags he).symm) hn')⟩
      · have hnm : ts.hasName u.name = true := by
          obtain ⟨x, hx, hxn⟩ := hasName_iff.1 (h1 u hu).1
          have : u.name ∈ ts.toList.map (·.name) := by rw [hn]; exact List.mem_map.2 ⟨x, hx, hxn⟩
          obtain ⟨y, hy, hyn⟩ := List.mem_map.1 this
          exact hasName_iff.2 ⟨y, hy, hyn⟩
        rw [if_pos hnm]
        exact bareTerms_compat hts ts u.name u.ty he hp.2 (h1 u hu).2 (terms_WF _ hw.1 u hu)
    | _ => simp only [Ty.bare, reduceCtorEq] at he
  | .array e _ _ _, t, w, he, hp, hr, hw => by
    cases t <;> simp only [Ty.bare, reduceCtorEq, Ty.array.injEq, and_true] at he
    obtain ⟨we, esz, al, rfl, hr⟩ := hr
    simp only [Compat]
    exact bare_compat e _ we he.1 hp hr hw.1
  | .vector e hl, t, w, he, hp, hr, hw => by
    cases t <;> simp only [Ty.bare, reduceCtorEq, Ty.vector.injEq] at he
    obtain ⟨we, l, rfl, h1, h2, h3⟩ := hr
    simp only [WF] at hw
    simp only [Compat]
    have hm := congrArg VecL.maxLen he.2
    exact ⟨bare_compat e _ we he.1 hp h1 hw.1, vecCompat_bare (hl := hl) hm h2 h3 hw.2⟩
termination_by structural h => h
theorem bareFields_compat : ∀ (hfs fs wfs wall : Fields), fs.bare = hfs.bare → PlainFields hfs →
    RelFields Laid hfs wfs → WFFields wfs → (∀ c o t, (c, o, t) ∈ wfs.toList → wall.findLast c = some (o, t)) →
    CompatFields fs wall
  | .nil, fs, wfs, wall, he, _, _, _, _ => by
    cases fs <;> simp only [Fields.bare, reduceCtorEq] at he; simp [CompatFields]
  | .cons c o h hr, fs, wfs, wall, he, hp, hrel, hw, hb => by
    cases fs <;> simp only [Fields.bare, reduceCtorEq, Fields.cons.injEq, true_and] at he
    obtain ⟨rfl, he⟩ := he
    obtain ⟨o', w, r', rfl, h1, h2⟩ := hrel
    simp only [CompatFields]
    refine ⟨?_, bareFields_compat hr _ r' wall he.2 hp.2 h2 hw.2 fun c o t ht => hb c o t (by simp [Fields.toList, ht])⟩
    rw [hb _ o' w (by simp [Fields.toList])]
    exact bare_compat h _ w he.1 hp.1 h1 hw.1
termination_by structural hfs => hfs
theorem bareTerms_compat : ∀ (hts ts : Terms) (c : Comp) (w : Ty), ts.bare = hts.bare → PlainTerms hts →
    RelNamed Laid hts c w → WF w → CompatNamed ts c w
  | .nil, ts, _, _, he, _, _, _ => by
    cases ts <;> simp only [Terms.bare, reduceCtorEq] at he; simp [CompatNamed]
  | .cons n g as h hr, ts, c, w, he, hp, hrel, hw => by
    cases ts <;> simp only [Terms.bare, reduceCtorEq, Terms.cons.injEq, true_and] at he
    obtain ⟨rfl, _, he⟩ := he
    simp only [CompatNamed]
    exact ⟨fun hc => bare_compat h _ w he.1 hp.2.1 (hrel.1 hc) hw,
      bareTerms_compat hr _ c w he.2 hp.2.2 hrel.2 hw⟩
termination_by structural hts => hts
end

end PJ
