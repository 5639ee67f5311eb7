import Verif.Spec.Elab
import Verif.Props.C26_Resolution
import Verif.Props.C38_Validation
/-!
# Schema files: the steps of elaboration
-/
namespace PJ

theorem Out.bind_ok {α β} {x : Out α} {f : α → Out β} {b : β} : x.bind f = .ok b ↔ ∃ a, x = .ok a ∧ f a = .ok b := by
  cases x <;> simp [Out.bind]

theorem Out.check_ok {b : Bool} {u : Unit} : Out.check b = .ok u ↔ b = true := by
  cases b <;> simp [Out.check]

theorem Out.some_ok {α} {o : Option α} {a : α} : Out.some? o = .ok a ↔ o = some a := by
  cases o <;> simp [Out.some?]

theorem intptr_ok {n k : Nat} : intptr n = .ok k ↔ k = n ∧ n < 2 ^ 63 := by
  unfold intptr
  split
  · rename_i h
    simp only [Out.ok.injEq]
    exact ⟨fun e => ⟨e.symm, h⟩, fun e => e.1.symm⟩
  · rename_i h
    simp [h]

theorem resolve_mem {α} {defs : List (SourceId × α)} {space id : SourceId} {e : SourceId × α}
    (h : resolve defs space id = some e) : e ∈ defs := by
  obtain ⟨_, _, h, _⟩ := C26_innermost defs space id e h
  exact h

/-- A type as it may be written in a file, given the definitions. -/
inductive Formed (defs : List (SourceId × PTy)) : PTy → Prop
  | int (w s) : validateInt (8 * w) = true → Formed defs (.int w s)
  | float (w) : 8 * w = 32 ∨ 8 * w = 64 → Formed defs (.float w)
  | any : Formed defs .any
  | ref (n t) : (n, t) ∈ defs → Formed defs t
  | array (e n) : n < 2 ^ 63 → Formed defs e → Formed defs (.array e n)
  | vector (e a b) : validateVector a (match b with | some m => m | none => -1) = true → a < 2 ^ 63 →
      (∀ m, b = some m → m < 2 ^ 63) → Formed defs e → Formed defs (.vector e a b)

theorem elabInt_formed {defs n s t} (h : elabInt n s = .ok t) : Formed defs t := by
  simp only [elabInt, Out.bind_ok, intptr_ok, Out.check_ok] at h
  obtain ⟨m, ⟨rfl, _⟩, _, h1, h2⟩ := h
  cases h2
  have := (C38_int _).1 h1
  refine .int _ _ ?_
  rw [show 8 * (m / 8) = m by omega]
  exact h1

theorem elabBase_formed {defs space b t} (h : elabBase defs space b = .ok t) : Formed defs t := by
  cases b with
  | builtin b n =>
    cases b with
    | float =>
      simp only [elabBase, Out.bind_ok, intptr_ok, Out.check_ok] at h
      obtain ⟨_, ⟨rfl, _⟩, _, h1, h2⟩ := h
      cases h2
      simp only [Bool.or_eq_true, beq_iff_eq] at h1
      exact .float _ (by omega)
    | _ => exact elabInt_formed h
  | any => cases h; exact .any
  | ref id =>
    simp only [elabBase, Out.bind_ok, Out.some_ok] at h
    obtain ⟨e, h1, h2⟩ := h
    cases h2
    exact .ref e.1 e.2 (resolve_mem h1)

theorem elabLen_ok {a b : Option Nat} (h : elabLen a = .ok b) : a = b ∧ ∀ m, b = some m → m < 2 ^ 63 := by
  cases a with
  | none => cases h; exact ⟨rfl, by simp⟩
  | some n =>
    simp only [elabLen, Out.bind_ok, intptr_ok] at h
    obtain ⟨_, ⟨rfl, h1⟩, h2⟩ := h
    cases h2
    exact ⟨rfl, by simpa using h1⟩

theorem elabMod_formed {defs t m u} (ht : Formed defs t) (h : elabMod t m = .ok u) : Formed defs u := by
  cases m with
  | fixed n =>
    simp only [elabMod, Out.bind_ok, intptr_ok] at h
    obtain ⟨_, ⟨rfl, h0⟩, _, _, h2⟩ := h
    cases h2
    exact .array _ _ h0 ht
  | var a b =>
    simp only [elabMod, Out.bind_ok, Out.check_ok] at h
    obtain ⟨a', ha, b', hb, _, h1, h2⟩ := h
    cases h2
    obtain ⟨rfl, ha⟩ := elabLen_ok ha
    obtain ⟨rfl, hb⟩ := elabLen_ok hb
    refine .vector _ _ _ h1 ?_ hb ht
    cases a with
    | none => simp
    | some n => exact ha n rfl

theorem elabMods_formed {defs} : ∀ {ms t u}, Formed defs t → elabMods t ms = .ok u → Formed defs u
  | [], _, _, ht, h => by cases h; exact ht
  | m :: ms, t, u, ht, h => by
    simp only [elabMods, Out.bind_ok] at h
    obtain ⟨t', h1, h2⟩ := h
    exact elabMods_formed (elabMod_formed ht h1) h2

theorem elabType_formed {defs space t u} (h : elabType defs space t = .ok u) : Formed defs u := by
  simp only [elabType, Out.bind_ok] at h
  obtain ⟨b, h1, h2⟩ := h
  exact elabMods_formed (elabBase_formed h1) h2

/-- What a definition may be, given the definitions before it. -/
inductive Made (defs : List (SourceId × PTy)) (name : SourceId) : PTy → Prop
  | alias {t} : Formed defs t → Made defs name t
  | ext : Made defs name (.ext name)
  | struct (l : List (Comp × PTy)) : (∀ x ∈ l, Formed defs x.2) → validateStruct (l.map (·.1)) = true →
      Made defs name (.struct name (PFields.ofList l))
  | variant (decl : List FieldDecl) (terms : List (Comp × Nat)) (k : Nat) (payload : Comp → PTy) :
      (∀ f ∈ decl, f.Legal) → handleVariant decl = .ok terms k →
      (∀ c, payload c = .unit ∨ Formed defs (payload c)) →
      Made defs name (.variant name (PTerms.make payload (internDecls terms k).1) (internDecls terms k).2)

theorem elabFields_formed {defs space} : ∀ {fs l}, elabFields defs space fs = .ok l → ∀ x ∈ l, Formed defs x.2
  | [], _, h => by cases h; simp
  | f :: fs, l, h => by
    simp only [elabFields, Out.bind_ok] at h
    obtain ⟨t, h1, r, h2, h3⟩ := h
    cases h3
    intro x hx
    rcases List.mem_cons.1 hx with rfl | hx
    · exact elabType_formed h1
    · exact elabFields_formed h2 x hx

theorem elabStruct_made {defs space n fs t} (h : elabStruct defs space n fs = .ok t) :
    Made defs (space ++ [nameBytes n]) t ∧ t.name? = some (space ++ [nameBytes n]) := by
  simp only [elabStruct, Out.bind_ok, Out.check_ok] at h
  obtain ⟨l, h1, _, h2, h3⟩ := h
  cases h3
  exact ⟨.struct l (elabFields_formed h1) h2, rfl⟩

theorem elabTag_legal {g n} (h : elabTag g = .ok n) : n ≠ 0 ∧ n < 2 ^ 64 := by
  cases g with
  | num k =>
    simp only [elabTag, Out.bind_ok, Out.check_ok, decide_eq_true_eq] at h
    obtain ⟨_, h1, h2⟩ := h
    cases h2
    exact h1
  | chr c =>
    simp only [elabTag, Out.bind_ok, Out.check_ok, decide_eq_true_eq] at h
    obtain ⟨_, h1, h2⟩ := h
    cases h2
    refine ⟨h1, ?_⟩
    split <;> omega

theorem elabTerm_ok {defs space t x} (h : elabTerm defs space t = .ok x) :
    x.1.Legal ∧ (x.2 = .unit ∨ Formed defs x.2) := by
  simp only [elabTerm, Out.bind_ok] at h
  obtain ⟨p, h1, g, h2, h3⟩ := h
  cases h3
  constructor
  · intro k hk
    cases ht : t.tag with
    | none => rw [ht] at h2; cases h2; cases hk
    | some a =>
      rw [ht] at h2
      simp only [Out.bind_ok] at h2
      obtain ⟨n, h4, h5⟩ := h2
      cases h5
      cases hk
      exact elabTag_legal h4
  · cases ht : t.type with
    | none => rw [ht] at h1; cases h1; exact .inl rfl
    | some a => rw [ht] at h1; exact .inr (elabType_formed h1)

theorem elabTerms_ok {defs space} : ∀ {ts l}, elabTerms defs space ts = .ok l →
    ∀ x ∈ l, x.1.Legal ∧ (x.2 = .unit ∨ Formed defs x.2)
  | [], _, h => by cases h; simp
  | t :: ts, l, h => by
    simp only [elabTerms, Out.bind_ok] at h
    obtain ⟨y, h1, r, h2, h3⟩ := h
    cases h3
    intro x hx
    rcases List.mem_cons.1 hx with rfl | hx
    · exact elabTerm_ok h1
    · exact elabTerms_ok h2 x hx

theorem elabVariant_made {defs space n ts t} (h : elabVariant defs space n ts = .ok t) :
    Made defs (space ++ [nameBytes n]) t ∧ t.name? = some (space ++ [nameBytes n]) := by
  simp only [elabVariant, Out.bind_ok] at h
  obtain ⟨l, h1, h2⟩ := h
  have h1 := elabTerms_ok h1
  split at h2
  · cases h2
  · cases h2
  · rename_i terms k hk
    cases h2
    refine ⟨.variant (l.map (·.1)) terms k _ ?_ hk ?_, rfl⟩
    · intro f hf
      obtain ⟨x, hx, rfl⟩ := List.mem_map.1 hf
      exact (h1 x hx).1
    · intro c
      unfold payloadOf
      split
      · rename_i x hx
        exact (h1 x (by simpa using List.mem_of_find?_eq_some hx)).2
      · exact .inl rfl

/-! ## Steps -/

/-- A path as it is read from a text. -/
def Path.Read (p : Path) : Prop := ∃ s, p = Path.fromString s

theorem elabPath_read (p : Option RawPath) : (elabPath p).Read := by
  cases p with
  | none => exact ⟨[], by simp [elabPath, Path.fromString, Path.fromChars]⟩
  | some s => exact ⟨s, rfl⟩

/-- The items of a portal fit the definitions. -/
structure PortalOK (defs : List (SourceId × PTy)) (q : Portal) : Prop where
  sizers : ∀ x ∈ q.sizers, ∃ t, (x.src, t) ∈ defs ∧ srcPathOK t x.path = true ∧ x.path.Read
  encoders : ∀ x ∈ q.encoders, ∃ t, (x.src, t) ∈ defs ∧ srcPathOK t x.path = true ∧ x.path.Read
  decoders : ∀ x ∈ q.decoders, ∃ t, (x.dst, t) ∈ defs ∧ (∀ p ∈ x.handlers, checkVariantPath t p true = true) ∧
    x.handlers.Nodup ∧ ∀ p ∈ x.handlers, Path.Read p

theorem distinctPaths_iff : ∀ {l : List Path}, distinctPaths l = true ↔ l.Nodup
  | [] => by simp [distinctPaths]
  | p :: ps => by simp [distinctPaths, distinctPaths_iff (l := ps)]

theorem elabItem_ok {defs space q i r} (h : elabItem defs space q i = .ok r) (hq : PortalOK defs q) :
    PortalOK defs r ∧ r.proto = q.proto := by
  cases i with
  | sizer n u src p =>
    simp only [elabItem, Out.bind_ok, Out.some_ok, Out.check_ok] at h
    obtain ⟨e, h1, _, h2, h3⟩ := h
    cases h3
    refine ⟨⟨fun x hx => ?_, hq.encoders, hq.decoders⟩, rfl⟩
    rcases List.mem_append.1 hx with hx | hx
    · exact hq.sizers x hx
    · simp only [List.mem_singleton] at hx
      subst hx
      exact ⟨e.2, resolve_mem h1, h2, elabPath_read p⟩
  | encoder n src p =>
    simp only [elabItem, Out.bind_ok, Out.some_ok, Out.check_ok] at h
    obtain ⟨e, h1, _, h2, h3⟩ := h
    cases h3
    refine ⟨⟨hq.sizers, fun x hx => ?_, hq.decoders⟩, rfl⟩
    rcases List.mem_append.1 hx with hx | hx
    · exact hq.encoders x hx
    · simp only [List.mem_singleton] at hx
      subst hx
      exact ⟨e.2, resolve_mem h1, h2, elabPath_read p⟩
  | decoder n dst hs =>
    simp only [elabItem, Out.bind_ok, Out.some_ok, Out.check_ok] at h
    obtain ⟨e, h1, _, h2, _, h3, h4⟩ := h
    cases h4
    refine ⟨⟨hq.sizers, hq.encoders, fun x hx => ?_⟩, rfl⟩
    rcases List.mem_append.1 hx with hx | hx
    · exact hq.decoders x hx
    · simp only [List.mem_singleton] at hx
      subst hx
      refine ⟨e.2, resolve_mem h1, List.all_eq_true.1 h2, distinctPaths_iff.1 h3, ?_⟩
      cases hs with
      | none => simp
      | some z =>
        intro p hp
        obtain ⟨s, _, rfl⟩ := List.mem_map.1 hp
        exact ⟨s, rfl⟩

theorem elabItems_ok {defs space} : ∀ {is q r}, elabItems defs space q is = .ok r → PortalOK defs q →
    PortalOK defs r ∧ r.proto = q.proto
  | [], _, _, h, hq => by cases h; exact ⟨hq, rfl⟩
  | i :: is, q, r, h, hq => by
    simp only [elabItems, Out.bind_ok] at h
    obtain ⟨q', h1, h2⟩ := h
    have ⟨h3, h4⟩ := elabItem_ok h1 hq
    have ⟨h5, h6⟩ := elabItems_ok h2 h3
    exact ⟨h5, h6.trans h4⟩

/-- What one declaration of the file `f` other than an import does. -/
inductive DeclStep (f : Nat) : Scope → Scope → Prop
  | alias (sc : Scope) (name t) : findDef sc.defs name = none → Formed sc.defs t →
      DeclStep f sc ({ sc with defs := sc.defs ++ [(name, t)] }.addDecl f (.alias name t))
  | external (sc : Scope) (name t) : findDef sc.defs name = none → Formed sc.defs t ∨ t = .ext name →
      DeclStep f sc { sc with defs := sc.defs ++ [(name, t)] }
  | composite (sc : Scope) (name t en ex) : findDef sc.defs name = none → Made sc.defs name t → t.name? = some name →
      DeclStep f sc ({ sc with defs := sc.defs ++ [(name, t)] }.addDecl f (.composite name t en ex))
  | spec (sc : Scope) (name m t p) : findDef sc.specs name = none → (m, t) ∈ sc.defs → specPathOK t p = true →
      p.Read → DeclStep f sc ({ sc with specs := sc.specs ++ [(name, t, p)] }.upd f
        fun o => { o with specs := o.specs ++ [(name, t, p)] })
  | portal (sc : Scope) (name q) : q.proto ∈ sc.specs.map (·.1) → PortalOK sc.defs q →
      findDef (sc.files f).portals name = none →
      DeclStep f sc ({ sc with portals := emplacePortal name q sc.portals }.upd f
        fun o => { o with portals := o.portals ++ [(name, ())] })
  | precomp (sc : Scope) (name q p) : p ∈ sc.specs.map (·.1) → q ∈ (sc.files f).portals.map (·.1) →
      findDef (sc.files f).precomps name = none → findDef (sc.files f).portals name = none →
      DeclStep f sc (sc.upd f fun o => { o with precomps := o.precomps ++ [(name, q, p)] })
  | language (sc : Scope) (space n text) : DeclStep f sc (sc.addDecl f (.language space n text))

theorem define_ok {sc sc' : Scope} {name t} (h : sc.define name t = .ok sc') :
    findDef sc.defs name = none ∧ sc' = { sc with defs := sc.defs ++ [(name, t)] } := by
  simp only [Scope.define, Out.bind_ok, Out.some_ok, defineType] at h
  obtain ⟨ds, h1, h2⟩ := h
  split at h1
  · cases h1
  · rename_i hn
    cases h1
    cases h2
    exact ⟨hn, rfl⟩

theorem resolve_none_self {α} {defs : List (SourceId × α)} {space id : SourceId} (h : resolve defs space id = none) :
    findDef defs id = none := by
  have h := (C26_fails_iff defs space id).1 h 0 (by omega)
  have h' := (C26_fails_iff defs [] id).2 (fun j hj d hd => by
    have : j = 0 := by simpa using hj
    subst this
    simpa using h d hd)
  simpa [resolve, resolveFrom] using h'

theorem elabSpec_step {f space n head p sc sc'} (h : elabSpec f space n head p sc = .ok sc') : DeclStep f sc sc' := by
  simp only [elabSpec, Out.bind_ok, Out.some_ok, Out.check_ok] at h
  obtain ⟨_, h1, e, h2, _, h3, h4⟩ := h
  cases h4
  exact .spec sc _ e.1 e.2 _ (resolve_none_self (Option.isNone_iff_eq_none.1 h1)) (resolve_mem h2) h3
    (elabPath_read p)

theorem elabPortal_step {f space n proto items sc sc'} (h : elabPortal f space n proto items sc = .ok sc') :
    DeclStep f sc sc' := by
  simp only [elabPortal, Out.bind_ok, Out.some_ok, Out.check_ok] at h
  obtain ⟨e, h1, q, h2, _, h3, h4⟩ := h
  cases h4
  obtain ⟨h5, h6⟩ := elabItems_ok h2 ⟨by simp, by simp, by simp⟩
  refine .portal sc _ q ?_ h5 (Option.isNone_iff_eq_none.1 h3)
  rw [h6]
  exact List.mem_map.2 ⟨e, resolve_mem h1, rfl⟩

theorem elabPrecomp_step {f space n portal proto sc sc'} (h : elabPrecomp f space n portal proto sc = .ok sc') :
    DeclStep f sc sc' := by
  simp only [elabPrecomp, Out.bind_ok, Out.some_ok, Out.check_ok, Bool.and_eq_true] at h
  obtain ⟨e, h1, q, h2, _, h3, h4⟩ := h
  cases h4
  exact .precomp sc _ q.1 e.1 (List.mem_map.2 ⟨e, resolve_mem h1, rfl⟩) (List.mem_map.2 ⟨q, resolve_mem h2, rfl⟩)
    (resolve_none_self (Option.isNone_iff_eq_none.1 h3.1)) (resolve_none_self (Option.isNone_iff_eq_none.1 h3.2))

theorem elabAlias_step {asSpec f space n ext t sc sc'} (h : elabAlias asSpec f space n ext t sc = .ok sc') :
    DeclStep f sc sc' := by
  simp only [elabAlias, Out.bind_ok] at h
  obtain ⟨ty, h1, h2⟩ := h
  have h1 := elabType_formed h1
  split at h2
  · obtain ⟨h3, rfl⟩ := define_ok h2
    refine .external sc _ _ h3 ?_
    cases asSpec
    · exact .inr rfl
    · exact .inl h1
  · simp only [Out.bind_ok] at h2
    obtain ⟨s, h3, h4⟩ := h2
    obtain ⟨h5, rfl⟩ := define_ok h3
    cases h4
    exact .alias sc _ _ h5 h1

/-! ## Runs -/

/-- What the declarations of the file `f` do while the files `pending` wait for it: steps of the file itself, and files
which it imports. -/
inductive FileRun : List Nat → Nat → Scope → Scope → Prop
  | nil (pd f sc) : FileRun pd f sc sc
  | step {pd f sc sc' sc''} : FileRun pd f sc sc' → DeclStep f sc' sc'' → FileRun pd f sc sc''
  | import_ {pd f g sc sc' sc''} : FileRun pd f sc sc' → g ∉ f :: pd → FileRun (f :: pd) g sc' sc'' →
      FileRun pd f sc (sc''.upd f fun o => { o with imports := o.imports ++ [g] })

theorem FileRun.trans {pd f a b c} (h : FileRun pd f a b) (h' : FileRun pd f b c) : FileRun pd f a c := by
  induction h' with
  | nil => exact h
  | step _ s ih => exact .step (ih h) s
  | import_ _ n r ih => exact .import_ (ih h) n r

theorem FileRun.one {pd f a b} (h : DeclStep f a b) : FileRun pd f a b := .step (.nil pd f a) h

mutual
theorem elabDecl_run (asSpec : Bool) (imp : SourceId → Scope → Out (Nat × Scope)) (pd : List Nat) (f : Nat)
    (himp : ∀ id sc r, imp id sc = .ok r → r.1 ∉ f :: pd ∧ FileRun (f :: pd) r.1 sc r.2) :
    ∀ (d : Decl) (space : SourceId) (sc sc' : Scope), elabDecl asSpec imp f space d sc = .ok sc' → FileRun pd f sc sc'
  | .import_ id, space, sc, sc', h => by
    simp only [elabDecl, Out.bind_ok] at h
    obtain ⟨r, h1, h2⟩ := h
    cases h2
    exact .import_ (.nil pd f sc) (himp _ _ _ h1).1 (himp _ _ _ h1).2
  | .struct n ext l, space, sc, sc', h => by
    simp only [elabDecl, Out.bind_ok] at h
    obtain ⟨t, h1, s, h2, h3⟩ := h
    obtain ⟨h4, rfl⟩ := define_ok h2
    cases h3
    have h1 := elabStruct_made h1
    exact .one (.composite sc _ _ _ _ h4 h1.1 h1.2)
  | .variant n ext l, space, sc, sc', h => by
    simp only [elabDecl, Out.bind_ok] at h
    obtain ⟨t, h1, s, h2, h3⟩ := h
    obtain ⟨h4, rfl⟩ := define_ok h2
    cases h3
    have h1 := elabVariant_made h1
    exact .one (.composite sc _ _ _ _ h4 h1.1 h1.2)
  | .enum n ext l, space, sc, sc', h => by
    simp only [elabDecl, Out.bind_ok] at h
    obtain ⟨t, h1, s, h2, h3⟩ := h
    obtain ⟨h4, rfl⟩ := define_ok h2
    cases h3
    have h1 := elabVariant_made h1
    exact .one (.composite sc _ _ _ _ h4 h1.1 h1.2)
  | .spec n head p, space, sc, sc', h => .one (elabSpec_step (by simpa only [elabDecl] using h))
  | .type n ext t, space, sc, sc', h => .one (elabAlias_step (by simpa only [elabDecl] using h))
  | .space n ds, space, sc, sc', h =>
    elabDecls_run asSpec imp pd f himp ds _ sc sc' (by simpa only [elabDecl] using h)
  | .language n text, space, sc, sc', h => by
    simp only [elabDecl] at h
    cases h
    exact .one (.language sc _ _ _)
  | .portal n proto items, space, sc, sc', h => .one (elabPortal_step (by simpa only [elabDecl] using h))
  | .precomp n portal proto, space, sc, sc', h => .one (elabPrecomp_step (by simpa only [elabDecl] using h))
theorem elabDecls_run (asSpec : Bool) (imp : SourceId → Scope → Out (Nat × Scope)) (pd : List Nat) (f : Nat)
    (himp : ∀ id sc r, imp id sc = .ok r → r.1 ∉ f :: pd ∧ FileRun (f :: pd) r.1 sc r.2) :
    ∀ (ds : List Decl) (space : SourceId) (sc sc' : Scope), elabDecls asSpec imp f space ds sc = .ok sc' → FileRun pd f sc sc'
  | [], _, sc, sc', h => by
    simp only [elabDecls] at h
    cases h
    exact .nil pd f sc
  | d :: ds, space, sc, sc', h => by
    simp only [elabDecls, Out.bind_ok] at h
    obtain ⟨s, h1, h2⟩ := h
    exact (elabDecl_run asSpec imp pd f himp d space sc s h1).trans (elabDecls_run asSpec imp pd f himp ds space s sc' h2)
end

theorem elabFile_run (fs : FileSys) (asSpec : Bool) : ∀ (fuel : Nat) (pending : List Nat) (f : Nat) (sc sc' : Scope),
    elabFile fs asSpec fuel pending f sc = .ok sc' → f ∉ pending ∧ FileRun pending f sc sc'
  | 0, _, _, _, _, h => by cases h
  | fuel + 1, pending, f, sc, sc', h => by
    simp only [elabFile, Out.bind_ok, Out.some_ok, Out.check_ok] at h
    obtain ⟨_, hp, s, _, ds, _, h⟩ := h
    refine ⟨by simpa using hp, elabDecls_run asSpec _ pending f ?_ ds [] sc sc' h⟩
    intro id sc1 r hr
    simp only [Out.bind_ok, Out.some_ok] at hr
    obtain ⟨g, _, sc2, h1, h2⟩ := hr
    cases h2
    exact elabFile_run fs asSpec fuel _ g sc1 sc2 h1

theorem elabRoot_run {fs asSpec f sc} (h : elabRoot fs asSpec f = .ok sc) : FileRun [] f {} sc :=
  (elabFile_run fs asSpec _ _ f _ _ h).2

/-! ## Fuel -/

theorem elabFile_fuel (fs : FileSys) (asSpec : Bool) : ∀ (n m : Nat) (pending : List Nat) (f : Nat) (sc : Scope),
    pending.Nodup → (∀ p ∈ pending, p < fs.texts.length) → fs.texts.length < n + pending.length →
    fs.texts.length < m + pending.length → elabFile fs asSpec n pending f sc = elabFile fs asSpec m pending f sc
  | n, m, pending, f, sc, hd, hp, hn, hm => by
    have hle : pending.length ≤ fs.texts.length := by
      have := hd.length_le_of_subset (l₂ := List.range fs.texts.length) (fun x hx => by simpa using hp x hx)
      simpa using this
    cases n with
    | zero => omega
    | succ n =>
      cases m with
      | zero => omega
      | succ m =>
        simp only [elabFile]
        cases hc : pending.contains f with
        | true => rfl
        | false =>
          cases ht : fs.texts[f]? with
          | none => rfl
          | some s =>
            have hf : f < fs.texts.length := by
              rcases Nat.lt_or_ge f fs.texts.length with h | h
              · exact h
              · rw [List.getElem?_eq_none h] at ht; cases ht
            have himp : (fun (id : SourceId) (sc : Scope) => (Out.some? (fs.find id)).bind fun g =>
                (elabFile fs asSpec n (f :: pending) g sc).bind fun sc => Out.ok (g, sc)) =
                (fun (id : SourceId) (sc : Scope) => (Out.some? (fs.find id)).bind fun g =>
                (elabFile fs asSpec m (f :: pending) g sc).bind fun sc => Out.ok (g, sc)) := by
              funext id sc'
              congr 1
              funext g
              rw [elabFile_fuel fs asSpec n m (f :: pending) g sc'
                (List.nodup_cons.2 ⟨by simpa using hc, hd⟩)
                (fun p hp' => by
                  rcases List.mem_cons.1 hp' with rfl | hp'
                  · exact hf
                  · exact hp p hp')
                (by simp only [List.length_cons]; omega) (by simp only [List.length_cons]; omega)]
            rw [himp]

end PJ
