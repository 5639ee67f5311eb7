import Verif.Lemmas.ElabInv
import Verif.Lemmas.HostGen
import Verif.Props.C08_Handlers
import Verif.Props.C25_TagAssignment
import Verif.Spec.AtPath
/-!
# Schema files: paths, and files whose numbers are in range
-/
namespace PJ

theorem follow_leads : ∀ (p : Path) (t : PTy) (n : SourceId) (ts : PTerms) (d : Nat),
    t.follow p = some (.variant n ts d) ↔ LeadsToVariant t p n ts d
  | [], t, n, ts, d => by
    constructor
    · intro h
      simp only [PTy.follow, Option.some.injEq] at h
      subst h
      exact .here n ts d
    · intro h
      cases h
      rfl
  | c :: p, t, n, ts, d => by
    constructor
    · intro h
      cases t with
      | struct m fs =>
        simp only [PTy.follow] at h
        split at h
        · rename_i t hf
          exact .field hf ((follow_leads p t n ts d).1 h)
        · cases h
      | _ => simp [PTy.follow] at h
    · intro h
      cases h with
      | field hf h =>
        simp only [PTy.follow, hf]
        exact (follow_leads p _ n ts d).2 h

/-- What `checkVariantPath` accepts. -/
theorem checkVariantPath_iff (t : PTy) (p : Path) (ct : Bool) (hp : p ≠ []) : checkVariantPath t p ct = true ↔
    ∃ q c n ts d, p = q ++ [c] ∧ LeadsToVariant t q n ts d ∧ (ct = true → c ∈ ts.names) := by
  have hl : p = p.dropLast ++ [p.getLast hp] := (List.dropLast_concat_getLast hp).symm
  have hg : p.getLast? = some (p.getLast hp) := List.getLast?_eq_some_getLast hp
  constructor
  · intro h
    unfold checkVariantPath at h
    split at h
    · rename_i n ts d hf
      rw [hg] at h
      refine ⟨_, _, n, ts, d, hl, (follow_leads _ _ _ _ _).1 hf, fun hc => ?_⟩
      subst hc
      simpa using h
    · cases h
  · rintro ⟨q, c, n, ts, d, rfl, h, hc⟩
    unfold checkVariantPath
    rw [List.dropLast_concat, (follow_leads _ _ _ _ _).2 h]
    cases ct with
    | false => rfl
    | true => simpa using hc rfl

theorem find_sty : ∀ {fs : PFields} {c : Comp} {t : PTy} {q : SFields} (off : Nat), fs.find c = some t → fs.sty = some q →
    ∃ s o, t.sty = some s ∧ (describeFields q off).find c = some (o, describe s)
  | .nil, _, _, _, _, h, _ => by simp [PFields.find] at h
  | .cons n t r, c, t', q, off, h, hq => by
    simp only [PFields.sty] at hq
    split at hq
    · rename_i s q' hs hq'
      cases hq
      simp only [PFields.find] at h
      split at h
      · rename_i hn
        cases h
        exact ⟨s, roundUp off (cpp s).2, hs, by simp only [describeFields, Fields.find, if_pos hn]⟩
      · rename_i hn
        obtain ⟨s', o, h1, h2⟩ := find_sty (roundUp off (cpp s).2 + (cpp s).1) h hq'
        exact ⟨s', o, h1, by simp only [describeFields, Fields.find, if_neg hn, h2]⟩
    · cases hq

/-- The described type has the variant at the end of the path. -/
theorem leads_at {t : PTy} {q : Path} {n : SourceId} {ts : PTerms} {d : Nat} (h : LeadsToVariant t q n ts d) :
    ∀ (s : STy) (c : Comp), t.sty = some s → ((describe s).at (q ++ [c])).isSome := by
  induction h with
  | here n ts d =>
    intro s c hs
    simp only [PTy.sty, Option.map_eq_some_iff] at hs
    obtain ⟨q, _, rfl⟩ := hs
    simp [describe, Ty.at]
  | @field n fs c t p m ts d hf _ ih =>
    intro s c' hs
    simp only [PTy.sty, Option.map_eq_some_iff] at hs
    obtain ⟨q, hq, rfl⟩ := hs
    obtain ⟨s', o, h1, h2⟩ := find_sty 0 hf hq
    have := ih s' c' h1
    obtain ⟨x, hx⟩ := Option.isSome_iff_exists.1 this
    simp [describe, Ty.at, h2, hx]

theorem sty_terms_names : ∀ {ts : PTerms} {q : STerms}, ts.sty = some q → q.decls.map (·.1) = ts.names
  | .nil, q, h => by
    simp only [PTerms.sty, Option.some.injEq] at h
    subst h
    rfl
  | .cons c g t r, q, h => by
    simp only [PTerms.sty] at h
    split at h
    · rename_i s q' hs hq
      cases h
      simp only [STerms.decls, PTerms.names, List.map_cons, sty_terms_names hq]
    · cases h

theorem describe_find_unique : ∀ (q : SFields) (off : Nat) (c : Comp) (o : Nat) (t : Ty), q.names.Nodup →
    (describeFields q off).find c = some (o, t) → ∀ x ∈ (describeFields q off).toList, x.1 = c → x.2.2 = t
  | .nil, off, c, o, t, _, h, x, hx, _ => by simp [describeFields, Fields.toList] at hx
  | .cons n s r, off, c, o, t, hd, h, x, hx, hc => by
    simp only [SFields.names, List.nodup_cons] at hd
    simp only [describeFields, Fields.find] at h
    simp only [describeFields, Fields.toList, List.mem_cons] at hx
    have hnames : ∀ (r : SFields) (off : Nat), ∀ x ∈ (describeFields r off).toList, x.1 ∈ r.names := by
      intro r
      induction r using SFields.rec (motive_1 := fun _ => True) (motive_3 := fun _ => True) with
      | nil => intro off x hx; simp [describeFields, Fields.toList] at hx
      | cons n t r _ ih =>
        intro off x hx
        simp only [describeFields, Fields.toList, List.mem_cons] at hx
        rcases hx with rfl | hx
        · simp [SFields.names]
        · simp only [SFields.names, List.mem_cons]
          exact .inr (ih _ x hx)
      | _ => trivial
    split at h
    · rename_i hn
      cases h
      rcases hx with rfl | hx
      · rfl
      · exact absurd (hnames _ _ x hx) (by rw [hc, ← hn]; exact hd.1)
    · rename_i hn
      rcases hx with rfl | hx
      · exact absurd hc hn
      · exact describe_find_unique r _ c o t hd.2 h x hx hc

/-- The described type is one the handlers of the variant are made for. -/
theorem leads_leadsTo {t : PTy} {q : Path} {n : SourceId} {ts : PTerms} {d : Nat} (h : LeadsToVariant t q n ts d) :
    ∀ s : STy, t.sty = some s → Accepted s → LeadsTo q (describe s) := by
  induction h with
  | here n ts d =>
    intro s hs _
    simp only [PTy.sty, Option.map_eq_some_iff] at hs
    obtain ⟨q, _, rfl⟩ := hs
    simp [describe, LeadsTo]
  | @field n fs c t p m ts d hf _ ih =>
    intro s hs ha
    simp only [PTy.sty, Option.map_eq_some_iff] at hs
    obtain ⟨q, hq, rfl⟩ := hs
    obtain ⟨s', o, h1, h2⟩ := find_sty 0 hf hq
    simp only [Accepted] at ha
    have hnd := (C38_struct _).1 ha.1
    have hacc : Accepted s' := by
      have hgo : ∀ (fs : PFields) (q : SFields), fs.find c = some t → fs.sty = some q → AcceptedFields q → Accepted s' := by
        intro fs
        induction fs using PFields.rec (motive_1 := fun _ => True) (motive_3 := fun _ => True) with
        | nil => intro q hf; simp [PFields.find] at hf
        | cons n t' r _ ih =>
          intro q hf hq ha
          simp only [PFields.sty] at hq
          split at hq
          · rename_i s q' hs hq'
            cases hq
            simp only [AcceptedFields] at ha
            simp only [PFields.find] at hf
            split at hf
            · cases hf
              rw [h1] at hs
              cases hs
              exact ha.1
            · exact ih q' hf hq' ha.2
          · cases hq
        | _ => trivial
      exact hgo fs q hf hq ha.2
    simp only [describe, LeadsTo]
    intro x hx hc
    rw [describe_find_unique q 0 c o _ hnd h2 x hx hc]
    exact ih s' h1 hacc

/-! ## Numbers in range -/

def BaseAst.InRange : BaseAst → Prop
  | .builtin _ n => n < 2 ^ 63
  | _ => True

def ModAst.InRange : ModAst → Prop
  | .fixed n => n < 2 ^ 63
  | .var a b => (∀ n, a = some n → n < 2 ^ 63) ∧ ∀ n, b = some n → n < 2 ^ 63

/-- The widths and lengths of a type are below 2^63. -/
def TypeAst.InRange (t : TypeAst) : Prop := t.base.InRange ∧ ∀ m ∈ t.mods, m.InRange

mutual
/-- The widths and lengths of a declaration are below 2^63, and so is the number of terms of a variant. -/
def Decl.InRange : Decl → Prop
  | .struct _ _ fs => ∀ f ∈ fs, f.type.InRange
  | .variant _ _ ts => (∀ t ∈ ts, ∀ ty, t.type = some ty → ty.InRange) ∧ ts.length < 2 ^ 63
  | .enum _ _ ts => (∀ t ∈ ts, ∀ ty, t.type = some ty → ty.InRange) ∧ ts.length < 2 ^ 63
  | .type _ _ t => t.InRange
  | .space _ ds => DeclsInRange ds
  | _ => True
def DeclsInRange : List Decl → Prop
  | [] => True
  | d :: ds => d.InRange ∧ DeclsInRange ds
end

theorem Out.bind_defined {α β} {x : Out α} {f : α → Out β} (hx : x ≠ .undef) (hf : ∀ a, x = .ok a → f a ≠ .undef) :
    x.bind f ≠ .undef := by
  cases x with
  | ok a => exact hf a rfl
  | reject => simp [Out.bind]
  | undef => exact absurd rfl hx

theorem Out.check_defined (b : Bool) : Out.check b ≠ .undef := by cases b <;> simp [Out.check]

theorem Out.some_defined {α} (o : Option α) : Out.some? o ≠ .undef := by cases o <;> simp [Out.some?]

theorem Out.ok_defined {α} (a : α) : Out.ok a ≠ .undef := by simp

theorem intptr_defined {n : Nat} (h : n < 2 ^ 63) : intptr n ≠ .undef := by simp [intptr, h]

theorem elabInt_defined {n : Nat} (h : n < 2 ^ 63) (s : Sign) : elabInt n s ≠ .undef :=
  Out.bind_defined (intptr_defined h) fun _ _ => Out.bind_defined (Out.check_defined _) fun _ _ => Out.ok_defined _

theorem elabBase_defined (defs space) (b : BaseAst) (h : b.InRange) : elabBase defs space b ≠ .undef := by
  cases b with
  | builtin b n =>
    cases b with
    | float =>
      exact Out.bind_defined (intptr_defined h) fun _ _ => Out.bind_defined (Out.check_defined _) fun _ _ => Out.ok_defined _
    | _ => exact elabInt_defined h _
  | any => exact Out.ok_defined _
  | ref id => exact Out.bind_defined (Out.some_defined _) fun _ _ => Out.ok_defined _

theorem elabLen_defined {a : Option Nat} (h : ∀ n, a = some n → n < 2 ^ 63) : elabLen a ≠ .undef := by
  cases a with
  | none => exact Out.ok_defined _
  | some n => exact Out.bind_defined (intptr_defined (h n rfl)) fun _ _ => Out.ok_defined _

theorem elabMod_defined (t : PTy) (m : ModAst) (h : m.InRange) : elabMod t m ≠ .undef := by
  cases m with
  | fixed n =>
    exact Out.bind_defined (intptr_defined h) fun _ _ => Out.bind_defined (Out.check_defined _) fun _ _ => Out.ok_defined _
  | var a b =>
    exact Out.bind_defined (elabLen_defined h.1) fun _ _ => Out.bind_defined (elabLen_defined h.2) fun _ _ =>
      Out.bind_defined (Out.check_defined _) fun _ _ => Out.ok_defined _

theorem elabMods_defined : ∀ (ms : List ModAst) (t : PTy), (∀ m ∈ ms, m.InRange) → elabMods t ms ≠ .undef
  | [], _, _ => Out.ok_defined _
  | m :: ms, t, h => Out.bind_defined (elabMod_defined t m (h m (by simp))) fun a _ =>
    elabMods_defined ms a fun m hm => h m (by simp [hm])

theorem elabType_defined (defs space) (t : TypeAst) (h : t.InRange) : elabType defs space t ≠ .undef :=
  Out.bind_defined (elabBase_defined defs space t.base h.1) fun a _ => elabMods_defined t.mods a h.2

theorem elabFields_defined (defs space) : ∀ (fs : List FieldAst), (∀ f ∈ fs, f.type.InRange) →
    elabFields defs space fs ≠ .undef
  | [], _ => Out.ok_defined _
  | f :: fs, h => Out.bind_defined (elabType_defined defs space f.type (h f (by simp))) fun _ _ =>
    Out.bind_defined (elabFields_defined defs space fs fun g hg => h g (by simp [hg])) fun _ _ => Out.ok_defined _

theorem elabTag_defined (g : TagAst) : elabTag g ≠ .undef := by
  cases g with
  | num n => exact Out.bind_defined (Out.check_defined _) fun _ _ => Out.ok_defined _
  | chr c => exact Out.bind_defined (Out.check_defined _) fun _ _ => Out.ok_defined _

theorem elabTerm_defined (defs space) (t : TermAst) (h : ∀ ty, t.type = some ty → ty.InRange) :
    elabTerm defs space t ≠ .undef := by
  refine Out.bind_defined ?_ fun _ _ => Out.bind_defined ?_ fun _ _ => Out.ok_defined _
  · split
    · exact Out.ok_defined _
    · rename_i ty hty
      exact elabType_defined defs space ty (h ty hty)
  · split
    · exact Out.ok_defined _
    · exact Out.bind_defined (elabTag_defined _) fun _ _ => Out.ok_defined _

theorem elabTerms_defined (defs space) : ∀ (ts : List TermAst), (∀ t ∈ ts, ∀ ty, t.type = some ty → ty.InRange) →
    elabTerms defs space ts ≠ .undef
  | [], _ => Out.ok_defined _
  | t :: ts, h => Out.bind_defined (elabTerm_defined defs space t (h t (by simp))) fun _ _ =>
    Out.bind_defined (elabTerms_defined defs space ts fun g hg => h g (by simp [hg])) fun _ _ => Out.ok_defined _

theorem elabTerms_length (defs space) : ∀ (ts : List TermAst) (l), elabTerms defs space ts = .ok l → l.length = ts.length
  | [], l, h => by cases h; rfl
  | t :: ts, l, h => by
    simp only [elabTerms, Out.bind_ok] at h
    obtain ⟨_, _, r, h2, h3⟩ := h
    cases h3
    simp [elabTerms_length defs space ts r h2]

theorem handleVariant_terminates (fs : List FieldDecl) (h : fs.length < 2 ^ 63) : handleVariant fs ≠ .diverges := by
  unfold handleVariant
  split
  · simp
  · rename_i dflt _
    obtain ⟨out, hout⟩ := assignTags_total (explicitTag fs) (declOrder fs dflt)
      (fs.filterMap (fun f => explicitTag fs f.name)) 0 (by decide) (by
        have h1 : (declOrder fs dflt).length ≤ fs.length + 1 := by cases dflt <;> simp [declOrder]
        have h2 := List.length_filterMap_le (fun f => explicitTag fs f.name) fs
        omega)
    rw [hout]
    simp only
    split <;> simp

theorem elabVariant_defined (defs space n) (ts : List TermAst) (h : ∀ t ∈ ts, ∀ ty, t.type = some ty → ty.InRange)
    (hl : ts.length < 2 ^ 63) : elabVariant defs space n ts ≠ .undef := by
  refine Out.bind_defined (elabTerms_defined defs space ts h) fun l hok => ?_
  have := handleVariant_terminates (l.map (·.1)) (by rw [List.length_map, elabTerms_length defs space ts l hok]; exact hl)
  split
  · simp
  · rename_i hd; exact absurd hd this
  · simp

theorem define_defined (sc : Scope) (n t) : sc.define n t ≠ .undef :=
  Out.bind_defined (Out.some_defined _) fun _ _ => Out.ok_defined _

theorem elabItem_defined (defs space q) (i : PortalItem) : elabItem defs space q i ≠ .undef := by
  cases i with
  | sizer => exact Out.bind_defined (Out.some_defined _) fun _ _ => Out.bind_defined (Out.check_defined _) fun _ _ => Out.ok_defined _
  | encoder => exact Out.bind_defined (Out.some_defined _) fun _ _ => Out.bind_defined (Out.check_defined _) fun _ _ => Out.ok_defined _
  | decoder =>
    exact Out.bind_defined (Out.some_defined _) fun _ _ => Out.bind_defined (Out.check_defined _) fun _ _ =>
      Out.bind_defined (Out.check_defined _) fun _ _ => Out.ok_defined _

theorem elabItems_defined (defs space) : ∀ (is : List PortalItem) (q), elabItems defs space q is ≠ .undef
  | [], _ => Out.ok_defined _
  | i :: is, q => Out.bind_defined (elabItem_defined defs space q i) fun a _ => elabItems_defined defs space is a

mutual
theorem elabDecl_defined (asSpec : Bool) (imp : SourceId → Scope → Out (Nat × Scope)) (f : Nat)
    (himp : ∀ id sc, imp id sc ≠ .undef) : ∀ (d : Decl) (space : SourceId) (sc : Scope), d.InRange →
    elabDecl asSpec imp f space d sc ≠ .undef
  | .import_ id, space, sc, _ => by
    simp only [elabDecl]
    exact Out.bind_defined (himp _ _) fun _ _ => Out.ok_defined _
  | .struct n ext l, space, sc, h => by
    simp only [elabDecl]
    simp only [Decl.InRange] at h
    exact Out.bind_defined (Out.bind_defined (elabFields_defined _ _ l h) fun _ _ =>
      Out.bind_defined (Out.check_defined _) fun _ _ => Out.ok_defined _) fun _ _ =>
      Out.bind_defined (define_defined _ _ _) fun _ _ => Out.ok_defined _
  | .variant n ext l, space, sc, h => by
    simp only [elabDecl]
    simp only [Decl.InRange] at h
    exact Out.bind_defined (elabVariant_defined _ _ _ l h.1 h.2) fun _ _ =>
      Out.bind_defined (define_defined _ _ _) fun _ _ => Out.ok_defined _
  | .enum n ext l, space, sc, h => by
    simp only [elabDecl]
    simp only [Decl.InRange] at h
    exact Out.bind_defined (elabVariant_defined _ _ _ l h.1 h.2) fun _ _ =>
      Out.bind_defined (define_defined _ _ _) fun _ _ => Out.ok_defined _
  | .spec n head p, space, sc, _ => by
    simp only [elabDecl, elabSpec]
    exact Out.bind_defined (Out.check_defined _) fun _ _ => Out.bind_defined (Out.some_defined _) fun _ _ =>
      Out.bind_defined (Out.check_defined _) fun _ _ => Out.ok_defined _
  | .type n ext t, space, sc, h => by
    simp only [elabDecl, elabAlias]
    simp only [Decl.InRange] at h
    refine Out.bind_defined (elabType_defined _ _ t h) fun _ _ => ?_
    split
    · exact define_defined _ _ _
    · exact Out.bind_defined (define_defined _ _ _) fun _ _ => Out.ok_defined _
  | .space n ds, space, sc, h => by
    simp only [elabDecl]
    simp only [Decl.InRange] at h
    exact elabDecls_defined asSpec imp f himp ds _ sc h
  | .language n text, space, sc, _ => by
    simp only [elabDecl]
    exact Out.ok_defined _
  | .portal n proto items, space, sc, _ => by
    simp only [elabDecl, elabPortal]
    exact Out.bind_defined (Out.some_defined _) fun _ _ => Out.bind_defined (elabItems_defined _ _ _ _) fun _ _ =>
      Out.bind_defined (Out.check_defined _) fun _ _ => Out.ok_defined _
  | .precomp n portal proto, space, sc, _ => by
    simp only [elabDecl, elabPrecomp]
    exact Out.bind_defined (Out.some_defined _) fun _ _ => Out.bind_defined (Out.some_defined _) fun _ _ =>
      Out.bind_defined (Out.check_defined _) fun _ _ => Out.ok_defined _
theorem elabDecls_defined (asSpec : Bool) (imp : SourceId → Scope → Out (Nat × Scope)) (f : Nat)
    (himp : ∀ id sc, imp id sc ≠ .undef) : ∀ (ds : List Decl) (space : SourceId) (sc : Scope), DeclsInRange ds →
    elabDecls asSpec imp f space ds sc ≠ .undef
  | [], _, sc, _ => by
    simp only [elabDecls]
    exact Out.ok_defined _
  | d :: ds, space, sc, h => by
    simp only [elabDecls]
    simp only [DeclsInRange] at h
    exact Out.bind_defined (elabDecl_defined asSpec imp f himp d space sc h.1) fun s _ =>
      elabDecls_defined asSpec imp f himp ds space s h.2
end

theorem elabFile_defined (fs : FileSys) (asSpec : Bool)
    (h : ∀ s ∈ fs.texts, ∀ ds, parseText s = some ds → DeclsInRange ds) :
    ∀ (n : Nat) (pending : List Nat) (f : Nat) (sc : Scope), pending.Nodup → (∀ p ∈ pending, p < fs.texts.length) →
    fs.texts.length < n + pending.length → elabFile fs asSpec n pending f sc ≠ .undef
  | 0, pending, f, sc, hd, hp, hn => by
    have := hd.length_le_of_subset (l₂ := List.range fs.texts.length) (fun x hx => by simpa using hp x hx)
    simp only [List.length_range] at this
    omega
  | n + 1, pending, f, sc, hd, hp, hn => by
    simp only [elabFile]
    refine Out.bind_defined (Out.check_defined _) fun _ hc => Out.bind_defined (Out.some_defined _) fun s hs =>
      Out.bind_defined (Out.some_defined _) fun ds hds => ?_
    have hs := Out.some_ok.1 hs
    have hf : f < fs.texts.length := by
      rcases Nat.lt_or_ge f fs.texts.length with h | h
      · exact h
      · rw [List.getElem?_eq_none h] at hs; cases hs
    refine elabDecls_defined asSpec _ f ?_ ds [] sc (h s (List.mem_of_getElem? hs) ds (Out.some_ok.1 hds))
    intro id sc'
    refine Out.bind_defined (Out.some_defined _) fun g _ => Out.bind_defined ?_ fun _ _ => Out.ok_defined _
    refine elabFile_defined fs asSpec h n (f :: pending) g sc' (List.nodup_cons.2 ⟨by simpa using Out.check_ok.1 hc, hd⟩) ?_ ?_
    · intro p hp'
      rcases List.mem_cons.1 hp' with rfl | hp'
      · exact hf
      · exact hp p hp'
    · simp only [List.length_cons]; omega

end PJ
