import Verif.Lemmas.PortalGen
import Verif.Props.C48_Schema
/-!
# C50: generated classes do what the portal declares

From the text of a schema file to methods of C++ classes: whatever the file, if the generated class compiles and an
object of it was constructed, the method of each sizer, encoder and decoder converts between the type and the protocol
that are written in the file, with the declared path, rounding and handlers.  The same holds of precompiled portals.
-/
namespace PJ

theorem PTy.self_parts (t : PTy) : t ∈ t.parts := by
  cases t <;> simp [PTy.parts]

/-- The description that the generated code makes for the name of a definition. -/
theorem hostTy_inv {sc : Scope} {n : SourceId} {t : Ty} (h : sc.hostTy n = some t) :
    ∃ u k, (n, u) ∈ sc.defs ∧ u.sty = some k ∧ t = describe k := by
  simp only [Scope.hostTy, Option.bind_eq_some_iff] at h
  obtain ⟨⟨m, u⟩, h1, h2⟩ := h
  obtain ⟨h3, h4⟩ := findDef_some h1
  simp only at h4
  subst h4
  have : u.sty.map describe = some t := by
    cases u <;> first | exact h2 | cases h2
  obtain ⟨k, h5, h6⟩ := Option.map_eq_some_iff.1 this
  exact ⟨u, k, h3, h5, h6.symm⟩

theorem hostTy_of {sc : Scope} (hn : (sc.defs.map (·.1)).Nodup) {n : SourceId} {u : PTy} (h : (n, u) ∈ sc.defs)
    (hi : ∀ w s, u ≠ .int w s) : sc.hostTy n = u.sty.map describe := by
  simp only [Scope.hostTy, findDef_unique hn h, Option.bind_some]

/-- The head of a specification. -/
theorem hostTy_head {sc : Scope} (hi : ScopeInv sc) {m hd : SourceId} {t : PTy} (hm : (m, t) ∈ sc.defs)
    (hn : t.name? = some hd) : sc.hostTy hd = t.sty.map describe :=
  hostTy_of hi.nodup (hi.closed _ hm t (PTy.self_parts t) hd hn) (by rintro w s rfl; cases hn)

/-- Methods `size`, `enc`, `dec` (with the name of the method, the type of the argument and fuel for nested calls) are
what a portal declares: for each coder the type is a definition of the file, and the method is the codec between the
description of the C++ type and the protocol. -/
structure Serves (sc : Scope) (p : Proto) (q : Portal)
    (size : Nat → FnName → SourceId → Mem → Nat → Option Nat)
    (enc : Nat → FnName → SourceId → Env → Nat → Nat → Mem → Res)
    (dec : Nat → FnName → SourceId → Env → Nat → Nat → Nat → Nat → Mem → Option Decoded) : Prop where
  sizers : ∀ x ∈ q.sizers, ∃ u k, (x.src, u) ∈ sc.defs ∧ u.sty = some k ∧ ∃ depth, ∀ fuel, depth ≤ fuel → ∀ S obj,
    size fuel x.name x.src S obj = sizeFn x.roundUp S (describe k) p x.path obj
  encoders : ∀ x ∈ q.encoders, ∃ u k, (x.src, u) ∈ sc.defs ∧ u.sty = some k ∧ ∃ depth, ∀ fuel, depth ≤ fuel →
    ∀ E obj buf mem, enc fuel x.name x.src E obj buf mem = encode E (describe k) p x.path obj buf mem
  decoders : ∀ x ∈ q.decoders, ∃ u k, (x.dst, u) ∈ sc.defs ∧ u.sty = some k ∧ ∃ depth, ∀ fuel, depth ≤ fuel →
    ∀ E msg obj buf cap mem,
      dec fuel x.name x.dst E msg obj buf cap mem = decode E p (describe k) x.handlers.zipIdx msg obj buf cap mem

theorem Methods.serves {sc p q size enc dec} (h : Methods (Scope.hostTy sc) p q size enc dec) : Serves sc p q size enc dec where
  sizers x hx := by
    obtain ⟨t, h1, h2⟩ := h.sizers x hx
    obtain ⟨u, k, h3, h4, rfl⟩ := hostTy_inv h1
    exact ⟨u, k, h3, h4, h2⟩
  encoders x hx := by
    obtain ⟨t, h1, h2⟩ := h.encoders x hx
    obtain ⟨u, k, h3, h4, rfl⟩ := hostTy_inv h1
    exact ⟨u, k, h3, h4, h2⟩
  decoders x hx := by
    obtain ⟨t, h1, h2⟩ := h.decoders x hx
    obtain ⟨u, k, h3, h4, rfl⟩ := hostTy_inv h1
    exact ⟨u, k, h3, h4, h2⟩

/-- The parts of what is generated for a file. -/
theorem genFile_inv {outer sc g s} (h : genFile outer sc g = some s) :
    ∃ ps cs, ((sc.files g).portals.mapM fun e => filePortal sc e.1) = some ps ∧
      (sc.files g).precomps.mapM (filePrecomp sc) = some cs ∧
      addProtocols outer [] ((sc.files g).specs ++ ps.map (·.2.2) ++ cs.map (·.2.2)) = some s.plans ∧
      (ps.mapM fun x => portalClass x.1 x.2.1 x.2.2.2) = some s.portals ∧
      s.precomps = cs.map (fun x => ⟨x.1, schemaPtr outer x.1, portalMethods (coderSymbol outer x.1) x.2.1⟩) ∧
      s.schemas = cs.map (fun x => (schemaPtr outer x.1, schemaSize outer x.1, flatName outer x.2.2.1)) ∧
      s.adds = cs.flatMap fun x => (portalAdds (coderSymbol outer x.1) x.2.1).map fun a => (flatName outer x.2.2.1, a) := by
  simp only [genFile, Option.bind_eq_some_iff, Option.map_eq_some_iff] at h
  obtain ⟨ps, h1, cs, h2, plans, h3, portals, h4, rfl⟩ := h
  exact ⟨ps, cs, h1, h2, h3, h4, rfl, rfl, rfl⟩

/-- The specifications that the portals of a file refer to. -/
theorem fileSpecs_all {sc : Scope} {g : Nat} {ps cs : List (SourceId × Portal × SourceId × PTy × Path)}
    (h1 : ((sc.files g).portals.mapM fun e => filePortal sc e.1) = some ps)
    (h2 : (sc.files g).precomps.mapM (filePrecomp sc) = some cs) :
    (∀ z ∈ ps, z.2.2 ∈ sc.specs) ∧ ∀ z ∈ cs, z.2.2 ∈ sc.specs := by
  constructor <;> intro z hz
  · obtain ⟨e, _, he⟩ := mapM_inv h1 z hz
    simp only [filePortal, Option.bind_eq_some_iff, Option.map_eq_some_iff] at he
    obtain ⟨_, _, y, hy, rfl⟩ := he
    exact (findDef_some hy).1
  · obtain ⟨e, _, he⟩ := mapM_inv h2 z hz
    simp only [filePrecomp, Option.bind_eq_some_iff, Option.map_eq_some_iff] at he
    obtain ⟨_, _, y, hy, rfl⟩ := he
    exact (findDef_some hy).1

theorem addProtocols_some {outer : SourceId} : ∀ {l : List (SourceId × PTy × Path)} {seen},
    (∀ y ∈ l, y.2.1.name? ≠ none) → ∃ plans, addProtocols outer seen l = some plans
  | [], _, _ => ⟨_, rfl⟩
  | (n, t, p) :: r, seen, h => by
    simp only [addProtocols]
    split
    · exact addProtocols_some fun y hy => h y (List.mem_cons_of_mem _ hy)
    · obtain ⟨plans, hp⟩ := addProtocols_some (outer := outer) (l := r) (seen := n :: seen)
        fun y hy => h y (List.mem_cons_of_mem _ hy)
      cases ht : t.name? with
      | none => exact absurd ht (h _ List.mem_cons_self)
      | some d => exact ⟨⟨flatName outer n, d, p.print⟩ :: plans, by simp only [hp, Option.bind_some, Option.map_some]⟩

/-- The class of a portal. -/
theorem portal_class {fs : FileSys} {asSpec : Bool} {f : Nat} {sc : Scope} (h : elabRoot fs asSpec f = .ok sc)
    {outer : SourceId} {g : Nat} {s : SrcGen} (hg : genFile outer sc g = some s) {n : SourceId}
    (hn : n ∈ (sc.files g).portals.map (·.1)) {q : Portal} (hq : (n, q) ∈ sc.portals) :
    ∃ c ∈ s.portals, c.name = n ∧ c.Of q ∧ ∃ t path, (q.proto, t, path) ∈ sc.specs ∧
      c.planned sc.hostTy = t.sty.bind fun k => plan (describe k) path := by
  have hi := ScopeInv.init.run (elabRoot_run h)
  obtain ⟨ps, cs, h1, _, _, h4, _⟩ := genFile_inv hg
  obtain ⟨e, he, rfl⟩ := List.mem_map.1 hn
  obtain ⟨x, hx, hxe⟩ := mapM_get h1 e he
  simp only [filePortal, findDef_unique hi.portalsNodup hq, Option.bind_some, Option.map_eq_some_iff] at hxe
  obtain ⟨⟨m, t, path⟩, hm, rfl⟩ := hxe
  obtain ⟨hm1, hm2⟩ := findDef_some hm
  simp only at hm2
  subst hm2
  obtain ⟨c, hc, hcx⟩ := mapM_get h4 _ hx
  obtain ⟨h5, h6, h7, h8⟩ := portalClass_of hcx
  refine ⟨c, hc, h5, h8, t, path, hm1, ?_⟩
  obtain ⟨⟨m, hd⟩, _, hr⟩ := hi.specs _ hm1
  simp only at hd hr h6 h7
  rw [PortalClass.planned, hostTy_head hi hd h6, h7, hr.reparse, Option.bind_map]
  rfl

theorem addProtocols_inv {outer : SourceId} : ∀ {l : List (SourceId × PTy × Path)} {seen plans},
    addProtocols outer seen l = some plans → ∀ x ∈ plans, ∃ y ∈ l, ∃ hd, y.2.1.name? = some hd ∧
      x = ⟨flatName outer y.1, hd, y.2.2.print⟩
  | [], _, _, h, x, hx => by
    simp only [addProtocols, Option.some.injEq] at h
    subst h
    cases hx
  | (n, t, p) :: r, seen, plans, h, x, hx => by
    simp only [addProtocols] at h
    split at h
    · obtain ⟨y, h1, h2⟩ := addProtocols_inv h x hx
      exact ⟨y, List.mem_cons_of_mem _ h1, h2⟩
    · simp only [Option.bind_eq_some_iff, Option.map_eq_some_iff] at h
      obtain ⟨hd, h1, ps, h2, rfl⟩ := h
      rcases List.mem_cons.1 hx with rfl | hx
      · exact ⟨_, List.mem_cons_self, hd, h1, rfl⟩
      · obtain ⟨y, h3, h4⟩ := addProtocols_inv h2 x hx
        exact ⟨y, List.mem_cons_of_mem _ h3, h4⟩

/-- Portals: `c` is the class for the portal `q` of the file.  The constructor without arguments plans the protocol of
its specification.  After either constructor, with the protocol `p`, the methods are what `q` declares. -/
theorem C50_portal (fs : FileSys) (asSpec : Bool) (f : Nat) (sc : Scope) (h : elabRoot fs asSpec f = .ok sc)
    (outer : SourceId) (g : Nat) (s : SrcGen) (hg : genFile outer sc g = some s) (n : SourceId)
    (hn : n ∈ (sc.files g).portals.map (·.1)) (q : Portal) (hq : (n, q) ∈ sc.portals) :
    ∃ c ∈ s.portals, c.name = n ∧
      (∃ t path, (q.proto, t, path) ∈ sc.specs ∧
        c.planned sc.hostTy = t.sty.bind fun k => plan (describe k) path) ∧
      ∀ (base : FnKey → FnName) (p : Proto) (o : PortalObj), c.Compiles → Constructed base sc.hostTy c p o →
        Serves sc p q (o.size c) (o.encode c) (o.decode c) := by
  have hi := ScopeInv.init.run (elabRoot_run h)
  obtain ⟨c, hc, h5, h8, h9⟩ := portal_class h hg hn hq
  exact ⟨c, hc, h5, h9, fun base p o hco hk => (hk.methods h8 (hi.portals _ hq).1 hco).serves⟩

/-- The class of a precompilation. -/
theorem precomp_class {fs : FileSys} {asSpec : Bool} {f : Nat} {sc : Scope} (h : elabRoot fs asSpec f = .ok sc)
    {outer : SourceId} {g : Nat} {s : SrcGen} (hg : genFile outer sc g = some s) {n qn pn : SourceId}
    (hn : (n, qn, pn) ∈ (sc.files g).precomps) {q : Portal} (hq : (qn, q) ∈ sc.portals) {t : PTy} {path : Path}
    (hp : (pn, t, path) ∈ sc.specs) :
    ∃ c ∈ s.precomps, c.name = n ∧ c.methods = portalMethods (coderSymbol outer c.name) q ∧
      ∀ (base : FnKey → FnName) (im : PreImage), c.Compiles → Precompiled base sc.hostTy s im →
        ∃ k p, t.sty = some k ∧ plan (describe k) path = some p ∧ im.data.lookup c.schema = some p ∧
          Serves sc p q (c.size im) (c.encode im) (c.decode im) := by
  have hi := ScopeInv.init.run (elabRoot_run h)
  obtain ⟨ps, cs, h1, h2, h3, _, h5, h6, h7⟩ := genFile_inv hg
  obtain ⟨x, hx, hxe⟩ := mapM_get h2 _ hn
  simp only [filePrecomp, findDef_unique hi.portalsNodup hq, findDef_unique hi.specsNodup hp, Option.bind_some,
    Option.map_some, Option.some.injEq] at hxe
  subst hxe
  refine ⟨_, by rw [h5]; exact List.mem_map.2 ⟨_, hx, rfl⟩, rfl, rfl, fun base im hc hk => ?_⟩
  have hall : ∀ y ∈ (sc.files g).specs ++ ps.map (·.2.2) ++ cs.map (·.2.2), y ∈ sc.specs := by
    intro y hy
    simp only [List.mem_append, List.mem_map] at hy
    rcases hy with (hy | ⟨z, hz, rfl⟩) | ⟨z, hz, rfl⟩
    · exact hi.fileSpecs g y hy
    · exact (fileSpecs_all h1 h2).1 z hz
    · exact (fileSpecs_all h1 h2).2 z hz
  obtain ⟨hd, hd1, hd2⟩ := addProtocols_mem h3 (fun a ha b hb hab => by
      obtain ⟨a1, a2⟩ := a
      obtain ⟨b1, b2⟩ := b
      simp only at hab
      subst hab
      rw [nodup_fst_eq hi.specsNodup (hall _ ha) (hall _ hb)]) (pn, t, path)
    (List.mem_append_right _ (List.mem_map.2 ⟨_, hx, rfl⟩)) (by simp)
  obtain ⟨env, e1, e2, e3⟩ := hk.run
  obtain ⟨⟨v, p⟩, l1, l2⟩ := mapM_get e1 _ hd2
  obtain ⟨⟨m, hm⟩, _, hr⟩ := hi.specs _ hp
  simp only at hm hr hd1
  simp only [PlanLine.run, hostTy_head hi hm hd1, hr.reparse, Option.map_eq_some_iff, Option.bind_eq_some_iff,
    Prod.mk.injEq] at l2
  obtain ⟨p', ⟨_, ⟨k, k1, rfl⟩, k2⟩, rfl, rfl⟩ := l2
  have henv : (env.map (·.1)).Nodup := by
    rw [mapM_map (g := (·.1)) (k := PlanLine.var) (fun a b hab => by
      simp only [PlanLine.run, Option.map_eq_some_iff] at hab
      obtain ⟨_, _, rfl⟩ := hab
      rfl) e1]
    exact hk.vars
  have hlk := lookup_unique henv l1
  refine ⟨k, _, k1, k2, ?_, Methods.serves ?_⟩
  · have hnd := hk.names
    rw [List.nodup_append] at hnd
    have hnd := (List.nodup_append.1 hnd.1).2.1
    have hdn : (im.data.map (·.1)).Nodup := by
      rw [mapM_map (g := (·.1)) (k := (·.1)) (fun a b hab => by
        simp only [Option.map_eq_some_iff] at hab
        obtain ⟨_, _, rfl⟩ := hab
        rfl) e3]
      exact hnd
    obtain ⟨b, b1, b2⟩ := mapM_get e3 (schemaPtr outer n, schemaSize outer n, flatName outer pn)
      (by rw [h6]; exact List.mem_map.2 ⟨_, hx, rfl⟩)
    simp only [hlk, Option.map_some, Option.some.injEq] at b2
    subst b2
    exact lookup_unique hdn b1
  · refine precomp_methods (c := ⟨n, _, _⟩) (outer := outer) (hi.portals _ hq).1 hc rfl hk.compiled fun a ha => ?_
    obtain ⟨b, b1, b2⟩ := mapM_get e2 (flatName outer pn, a)
      (by rw [h7]; exact List.mem_flatMap.2 ⟨_, hx, List.mem_map.2 ⟨a, ha, rfl⟩⟩)
    simp only [hlk, Option.bind_some] at b2
    exact ⟨b, b1, b2⟩

/-- Precompiled portals: the protocol is planned for the specification that the precompilation names, the methods are
what the portal declares, and the schema that the class has is the one of this protocol. -/
theorem C50_precompiled (fs : FileSys) (asSpec : Bool) (f : Nat) (sc : Scope) (h : elabRoot fs asSpec f = .ok sc)
    (outer : SourceId) (g : Nat) (s : SrcGen) (hg : genFile outer sc g = some s) (n qn pn : SourceId)
    (hn : (n, qn, pn) ∈ (sc.files g).precomps) (q : Portal) (hq : (qn, q) ∈ sc.portals) (t : PTy) (path : Path)
    (hp : (pn, t, path) ∈ sc.specs) :
    ∃ c ∈ s.precomps, c.name = n ∧
      ∀ (base : FnKey → FnName) (im : PreImage), c.Compiles → Precompiled base sc.hostTy s im →
        ∃ k p, t.sty = some k ∧ plan (describe k) path = some p ∧ im.data.lookup c.schema = some p ∧
          Serves sc p q (c.size im) (c.encode im) (c.decode im) := by
  obtain ⟨c, hc, h1, _, h2⟩ := precomp_class h hg hn hq hp
  exact ⟨c, hc, h1, h2⟩

/-! ## When there is something to call -/

/-- Source is generated for every file whose specifications are for structs and variants. -/
theorem C50_generates (fs : FileSys) (asSpec : Bool) (f : Nat) (sc : Scope) (h : elabRoot fs asSpec f = .ok sc)
    (outer : SourceId) (g : Nat) (hn : ∀ x ∈ sc.specs, x.2.1.name? ≠ none) : (genFile outer sc g).isSome := by
  have hi := ScopeInv.init.run (elabRoot_run h)
  have hfind : ∀ n, n ∈ sc.specs.map (·.1) → ∃ x, findDef sc.specs n = some x ∧ x ∈ sc.specs := by
    intro n hn
    obtain ⟨⟨m, t⟩, ht, rfl⟩ := List.mem_map.1 hn
    exact ⟨_, findDef_unique hi.specsNodup ht, ht⟩
  obtain ⟨ps, h1⟩ := mapM_some (f := fun e : SourceId × Unit => filePortal sc e.1) (l := (sc.files g).portals) (by
    intro e he
    obtain ⟨⟨m, q⟩, h1, hm⟩ := List.mem_map.1 (hi.filePortals g e he)
    obtain ⟨x, h3, _⟩ := hfind _ (hi.portals _ h1).2
    simp only at h3 hm
    subst hm
    simp only [filePortal, findDef_unique hi.portalsNodup h1, Option.bind_some, h3, Option.map_some, Option.isSome_some])
  obtain ⟨cs, h2⟩ := mapM_some (f := filePrecomp sc) (l := (sc.files g).precomps) (by
    intro e he
    obtain ⟨h1, h2⟩ := hi.filePrecomps g e he
    obtain ⟨⟨m, q⟩, h1, hm⟩ := List.mem_map.1 h1
    obtain ⟨x, h3, _⟩ := hfind _ h2
    simp only at hm
    subst hm
    simp only [filePrecomp, findDef_unique hi.portalsNodup h1, Option.bind_some, h3, Option.map_some, Option.isSome_some])
  obtain ⟨hps, hcs⟩ := fileSpecs_all h1 h2
  have hall : ∀ y ∈ (sc.files g).specs ++ ps.map (·.2.2) ++ cs.map (·.2.2), y ∈ sc.specs := by
    intro y hy
    simp only [List.mem_append, List.mem_map] at hy
    rcases hy with (hy | ⟨z, hz, rfl⟩) | ⟨z, hz, rfl⟩
    · exact hi.fileSpecs g y hy
    · exact hps z hz
    · exact hcs z hz
  obtain ⟨plans, h3⟩ := addProtocols_some (outer := outer) (seen := []) fun y hy => hn y (hall y hy)
  obtain ⟨portals, h4⟩ := mapM_some (f := fun x : SourceId × Portal × SourceId × PTy × Path =>
      portalClass x.1 x.2.1 x.2.2.2) (l := ps) (by
    intro x hx
    have := hn _ (hps x hx)
    cases hx' : x.2.2.2.1.name? with
    | none => exact absurd hx' this
    | some d => simp only [portalClass, hx', Option.map_some, Option.isSome_some])
  simp only [genFile, h1, h2, h3, h4, Option.bind_some, Option.map_some, Option.isSome_some]

/-- Names that the generated class uses itself, or that cannot be names of functions. -/
def reservedNames : List FnName :=
  ["ctx", "proto", "portal", "ctx_", "proto_", "portal_", "getProtocol", "getContext", "memcpy"].map String.toList

/-- Names of coders for which the class compiles: they are different, free, no keywords, not the name of the class, and
none is another one with an underscore. -/
structure NamesFree (cls : FnName) (l : List Comp) : Prop where
  nodup : l.Nodup
  free : ∀ n ∈ l, n ∉ reservedNames ∧ n ∉ cppKeywords ∧ n ≠ cls ∧ memberVar n ≠ cls ∧ memberVar n ∉ l
  cls : cls ∉ reservedNames

theorem PortalClass.Of.compiles {c : PortalClass} {q : Portal} (h : c.Of q) (hn : NamesFree (className c.name) q.names) :
    c.Compiles := by
  have hres : ∀ n ∈ q.names, ∀ r ∈ reservedNames, n ≠ r := fun n hn' r hr e => (hn.free n hn').1 (e ▸ hr)
  have hcls : ∀ r ∈ reservedNames, className c.name ≠ r := fun r hr e => hn.cls (e ▸ hr)
  have hmeth : ∀ m ∈ c.methods, m.name ∈ q.names := by
    intro m hm
    rw [← portalMethods_names memberVar q, ← h.methods]
    exact List.mem_map_of_mem hm
  have hmv : ∀ n ∈ q.names, memberVar n ∉ ["ctx_".toList, "proto_".toList, "portal_".toList] := by
    intro n hn' hm
    have h1 : ∀ w : List Char, memberVar n = memberVar w → n = w := fun w => memberVar_inj
    simp only [List.mem_cons, List.not_mem_nil, or_false] at hm
    rcases hm with e | e | e
    · exact hres n hn' _ (by decide) (h1 "ctx".toList e)
    · exact hres n hn' _ (by decide) (h1 "proto".toList e)
    · exact hres n hn' _ (by decide) (h1 "portal".toList e)
  refine ⟨?_, ?_, ⟨?_, ?_⟩, ?_, ?_⟩
  · rw [h.vars]
    refine List.nodup_append.2 ⟨by decide, ?_, ?_⟩
    · exact List.Pairwise.map memberVar (fun a b hab e => hab (memberVar_inj e)) hn.nodup
    · rintro a ha b hb rfl
      obtain ⟨n, hn', rfl⟩ := List.mem_map.1 hb
      exact hmv n hn' ha
  · intro m hm hv
    rw [h.vars, List.mem_append, List.mem_map] at hv
    simp only [List.mem_cons] at hm
    rcases hm with rfl | rfl | hm
    · rcases hv with hv | ⟨n, _, e⟩
      · exact absurd hv (by decide)
      · have := congrArg List.getLast? e
        rw [memberVar, List.getLast?_concat] at this
        exact absurd this (by decide)
    · rcases hv with hv | ⟨n, _, e⟩
      · exact absurd hv (by decide)
      · have := congrArg List.getLast? e
        rw [memberVar, List.getLast?_concat] at this
        exact absurd this (by decide)
    · rcases hv with hv | ⟨n, hn', e⟩
      · refine (hn.free _ (hmeth m hm)).1 ?_
        revert hv
        generalize m.name = w
        simp only [reservedNames, List.map_cons, List.mem_cons, List.not_mem_nil, or_false]
        rintro (e | e | e) <;> simp [e]
      · exact (hn.free n hn').2.2.2.2 (e ▸ hmeth m hm)
  · rw [h.vars, List.mem_append, List.mem_map]
    rintro (hv | ⟨n, hn', e⟩)
    · refine hn.cls ?_
      revert hv
      simp only [reservedNames, List.map_cons, List.mem_cons, List.not_mem_nil, or_false]
      rintro (e | e | e) <;> simp [e]
    · exact (hn.free n hn').2.2.2.1 e
  · intro m hm
    simp only [List.mem_cons] at hm
    rcases hm with rfl | rfl | hm
    · exact (hcls _ (by decide)).symm
    · exact (hcls _ (by decide)).symm
    · exact (hn.free _ (hmeth m hm)).2.2.1
  · have h1 : (c.methods.map fun m => (m.name, m.kind, m.ty)).Nodup := by
      have : (c.methods.map (·.name)).Nodup := by rw [h.methods, portalMethods_names]; exact hn.nodup
      exact List.Pairwise.map _ (fun a b hab e => hab (by injection e)) (List.pairwise_map.1 this)
    simp only [List.map_cons, List.nodup_cons, List.mem_cons, List.mem_map, not_or]
    refine ⟨⟨by decide, ?_⟩, ?_, h1⟩
    · rintro ⟨m, hm, e⟩
      exact hres _ (hmeth m hm) _ (by decide) (congrArg (·.1) e)
    · rintro ⟨m, hm, e⟩
      exact hres _ (hmeth m hm) _ (by decide) (congrArg (·.1) e)
  · intro m hm
    simp only [List.mem_cons] at hm
    rcases hm with rfl | rfl | hm
    · decide
    · decide
    · exact (hn.free _ (hmeth m hm)).2.1

theorem PortalClass.Of.constructs {c : PortalClass} {q : Portal} (h : c.Of q) (hn : NamesFree (className c.name) q.names)
    (base : FnKey → FnName) (D : SourceId → Option Ty) (p : Proto) (hD : ∀ a ∈ c.adds, (D a.ty).isSome)
    (hw : ∀ fns, c.adds.mapM (AddCall.fn D p) = some fns → todoWeight (fns.map fun f => f.2.entry f.1) < 2 ^ 31) :
    ∃ o, Constructed base D c p o := by
  obtain ⟨fns, hf⟩ := mapM_some (f := AddCall.fn D p) (l := c.adds) (by
    intro a ha
    have := hD a ha
    cases a <;> simpa only [AddCall.fn, AddCall.ty, Option.isSome_map] using this)
  obtain ⟨m, g, h1, _, h3⟩ := (C49_ends base (fns.map fun f => f.2.entry f.1)).2
    (fun n g h => by
      have h1 := h.weight
      have h2 := h.fns_le
      have := hw fns hf
      omega) 0 _ .start
  have hnames : fns.map (·.1) = q.names := by
    rw [mapM_map (fun a b hab => AddCall.fn_name hab) hf, h.adds, portalAdds_names, List.map_id']
  refine ⟨⟨⟨fns, g⟩, runGets ⟨fns, g⟩ c.gets⟩, hf, ⟨?_, ⟨m, h1⟩, h3⟩, ?_, rfl⟩
  · simp only [hnames]; exact hn.nodup
  · simp only [hnames]
    intro hm
    exact (hn.free _ hm).1 (by decide)

/-- The class compiles and objects of it can be made with any protocol, so that there are methods to call: the names of
the coders are free, their types are no integers and have no parts that the model leaves out, and there are not too many
functions. -/
theorem C50_constructs_partial (fs : FileSys) (asSpec : Bool) (f : Nat) (sc : Scope) (h : elabRoot fs asSpec f = .ok sc)
    (outer : SourceId) (g : Nat) (s : SrcGen) (hg : genFile outer sc g = some s) (n : SourceId)
    (hn : n ∈ (sc.files g).portals.map (·.1)) (q : Portal) (hq : (n, q) ∈ sc.portals)
    (hnames : NamesFree (className n) q.names)
    (htypes : ∀ x ∈ q.sizers.map (·.src) ++ q.encoders.map (·.src) ++ q.decoders.map (·.dst), ∀ u, (x, u) ∈ sc.defs →
      (∀ w sg, u ≠ .int w sg) ∧ u.sty ≠ none) :
    ∃ c ∈ s.portals, c.name = n ∧ c.Compiles ∧
      (∃ t path, (q.proto, t, path) ∈ sc.specs ∧
        c.planned sc.hostTy = t.sty.bind fun k => plan (describe k) path) ∧ ∀ (base : FnKey → FnName) (p : Proto),
      (∀ fns, (portalAdds (fun n => n) q).mapM (AddCall.fn sc.hostTy p) = some fns →
        todoWeight (fns.map fun f => f.2.entry f.1) < 2 ^ 31) →
      ∃ o, Constructed base sc.hostTy c p o ∧ Serves sc p q (o.size c) (o.encode c) (o.decode c) := by
  have hi := ScopeInv.init.run (elabRoot_run h)
  obtain ⟨c, hc, h5, h8, h9⟩ := portal_class h hg hn hq
  have hcomp := h8.compiles (by rw [h5]; exact hnames)
  have hdef : ∀ x ∈ q.sizers.map (·.src) ++ q.encoders.map (·.src) ++ q.decoders.map (·.dst), (sc.hostTy x).isSome := by
    intro x hx
    have hmem : ∃ u, (x, u) ∈ sc.defs := by
      simp only [List.mem_append, List.mem_map] at hx
      rcases hx with (⟨y, hy, rfl⟩ | ⟨y, hy, rfl⟩) | ⟨y, hy, rfl⟩
      · obtain ⟨u, hu, _⟩ := (hi.portals _ hq).1.sizers y hy
        exact ⟨u, hu⟩
      · obtain ⟨u, hu, _⟩ := (hi.portals _ hq).1.encoders y hy
        exact ⟨u, hu⟩
      · obtain ⟨u, hu, _⟩ := (hi.portals _ hq).1.decoders y hy
        exact ⟨u, hu⟩
    obtain ⟨u, hu⟩ := hmem
    obtain ⟨k1, k2⟩ := htypes x hx u hu
    rw [hostTy_of hi.nodup hu k1, Option.isSome_map]
    exact Option.isSome_iff_ne_none.2 k2
  refine ⟨c, hc, h5, hcomp, h9, fun base p hw => ?_⟩
  obtain ⟨o, ho⟩ := h8.constructs (by rw [h5]; exact hnames) base sc.hostTy p (by
      intro a ha
      apply hdef
      rw [h8.adds, portalAdds] at ha
      simp only [List.mem_append, List.mem_map] at ha ⊢
      rcases ha with (⟨x, hx, rfl⟩ | ⟨x, hx, rfl⟩) | ⟨x, hx, rfl⟩
      · exact .inl (.inl ⟨x, hx, rfl⟩)
      · exact .inl (.inr ⟨x, hx, rfl⟩)
      · exact .inr ⟨x, hx, rfl⟩) (by rw [h8.adds]; exact hw)
  exact ⟨o, ho, (ho.methods h8 (hi.portals _ hq).1 hcomp).serves⟩

/-- The program that precompiles runs: specifications can be planned, the types of the coders of precompiled portals are
no integers and have no parts that the model leaves out, there are not too many functions, and the names in the program
are different. -/
theorem C50_precompiles_partial (fs : FileSys) (asSpec : Bool) (f : Nat) (sc : Scope) (h : elabRoot fs asSpec f = .ok sc)
    (outer : SourceId) (g : Nat) (s : SrcGen) (hg : genFile outer sc g = some s)
    (hvars : (s.plans.map (·.var)).Nodup)
    (hsyms : (s.adds.map (·.2.name) ++ s.schemas.map (·.1) ++ s.schemas.map (·.2.1)).Nodup)
    (hplan : ∀ x ∈ sc.specs, ∃ k, x.2.1.sty = some k ∧ (plan (describe k) x.2.2).isSome)
    (htypes : ∀ a ∈ s.adds, ∀ u, (a.2.ty, u) ∈ sc.defs → (∀ w sg, u ≠ .int w sg) ∧ u.sty ≠ none)
    (base : FnKey → FnName)
    (hw : ∀ env fns, s.plans.mapM (PlanLine.run sc.hostTy) = some env →
      s.adds.mapM (fun a => (env.lookup a.1).bind fun p => a.2.fn sc.hostTy p) = some fns →
      todoWeight (fns.map fun f => f.2.entry f.1) < 2 ^ 31) :
    ∃ im, Precompiled base sc.hostTy s im := by
  have hi := ScopeInv.init.run (elabRoot_run h)
  obtain ⟨ps, cs, h1, h2, h3, _, h5, h6, h7⟩ := genFile_inv hg
  have hall : ∀ y ∈ (sc.files g).specs ++ ps.map (·.2.2) ++ cs.map (·.2.2), y ∈ sc.specs := by
    intro y hy
    simp only [List.mem_append, List.mem_map] at hy
    rcases hy with (hy | ⟨z, hz, rfl⟩) | ⟨z, hz, rfl⟩
    · exact hi.fileSpecs g y hy
    · exact (fileSpecs_all h1 h2).1 z hz
    · exact (fileSpecs_all h1 h2).2 z hz
  obtain ⟨env, he⟩ := mapM_some (f := PlanLine.run sc.hostTy) (l := s.plans) (by
    intro l hl
    obtain ⟨y, hy, hn, hd, rfl⟩ := addProtocols_inv h3 l hl
    obtain ⟨k, k1, k2⟩ := hplan y (hall y hy)
    obtain ⟨⟨m, hm⟩, _, hr⟩ := hi.specs y (hall y hy)
    obtain ⟨pr, hpr⟩ := Option.isSome_iff_exists.1 k2
    simp only [PlanLine.run, hostTy_head hi hm hd, k1, Option.map_some, Option.bind_some, hr.reparse, hpr,
      Option.isSome_some])
  have henv : (env.map (·.1)).Nodup := by
    rw [mapM_map (g := (·.1)) (k := PlanLine.var) (fun a b hab => by
      simp only [PlanLine.run, Option.map_eq_some_iff] at hab
      obtain ⟨_, _, rfl⟩ := hab
      rfl) he]
    exact hvars
  have hlook : ∀ x ∈ cs, (env.lookup (flatName outer x.2.2.1)).isSome := by
    intro x hx
    obtain ⟨hd, hd1, hd2⟩ := addProtocols_mem h3 (fun a ha b hb hab => by
        obtain ⟨a1, a2⟩ := a
        obtain ⟨b1, b2⟩ := b
        simp only at hab
        subst hab
        rw [nodup_fst_eq hi.specsNodup (hall _ ha) (hall _ hb)]) x.2.2
      (List.mem_append_right _ (List.mem_map.2 ⟨x, hx, rfl⟩)) (by simp)
    obtain ⟨⟨v, p⟩, l1, l2⟩ := mapM_get he _ hd2
    simp only [PlanLine.run, Option.map_eq_some_iff, Prod.mk.injEq] at l2
    obtain ⟨_, _, rfl, rfl⟩ := l2
    rw [lookup_unique henv l1]
    rfl
  obtain ⟨fns, hf⟩ := mapM_some (f := fun a : FnName × AddCall => (env.lookup a.1).bind fun p => a.2.fn sc.hostTy p)
      (l := s.adds) (by
    intro a ha
    have hty : ∃ u, (a.2.ty, u) ∈ sc.defs := by
      rw [h7] at ha
      obtain ⟨x, hx, ha⟩ := List.mem_flatMap.1 ha
      obtain ⟨b, hb, rfl⟩ := List.mem_map.1 ha
      obtain ⟨e, _, hxe⟩ := mapM_inv h2 x hx
      simp only [filePrecomp, Option.bind_eq_some_iff, Option.map_eq_some_iff] at hxe
      obtain ⟨⟨m, q⟩, hq, _, _, rfl⟩ := hxe
      have hq := hi.portals _ (findDef_some hq).1
      simp only [portalAdds, List.mem_append, List.mem_map] at hb
      rcases hb with (⟨y, hy, rfl⟩ | ⟨y, hy, rfl⟩) | ⟨y, hy, rfl⟩
      · obtain ⟨u, hu, _⟩ := hq.1.sizers y hy
        exact ⟨u, hu⟩
      · obtain ⟨u, hu, _⟩ := hq.1.encoders y hy
        exact ⟨u, hu⟩
      · obtain ⟨u, hu, _⟩ := hq.1.decoders y hy
        exact ⟨u, hu⟩
    have hv : (env.lookup a.1).isSome := by
      rw [h7] at ha
      obtain ⟨x, hx, ha⟩ := List.mem_flatMap.1 ha
      obtain ⟨b, hb, rfl⟩ := List.mem_map.1 ha
      exact hlook x hx
    obtain ⟨u, hu⟩ := hty
    obtain ⟨p, hp⟩ := Option.isSome_iff_exists.1 hv
    obtain ⟨k1, k2⟩ := htypes a ha u hu
    have h8 : (sc.hostTy a.2.ty).isSome := by
      rw [hostTy_of hi.nodup hu k1, Option.isSome_map]
      exact Option.isSome_iff_ne_none.2 k2
    obtain ⟨v, a⟩ := a
    simp only [hp, Option.bind_some]
    cases a <;> simpa only [AddCall.fn, AddCall.ty, Option.isSome_map] using h8)
  obtain ⟨data, hd⟩ := mapM_some (f := fun x : FnName × FnName × FnName => (env.lookup x.2.2).map fun p => (x.1, p))
      (l := s.schemas) (by
    intro x hx
    rw [h6] at hx
    obtain ⟨y, hy, rfl⟩ := List.mem_map.1 hx
    rw [Option.isSome_map]
    exact hlook y hy)
  obtain ⟨m, gen, g1, _, g3⟩ := (C49_ends base (fns.map fun f => f.2.entry f.1)).2
    (fun n g h => by
      have h1 := h.weight
      have h2 := h.fns_le
      have := hw env fns he hf
      omega) 0 _ .start
  have hnames : fns.map (·.1) = s.adds.map (·.2.name) :=
    mapM_map (g := (·.1)) (k := fun a : FnName × AddCall => a.2.name) (fun a b hab => by
      obtain ⟨p, _, hp⟩ := Option.bind_eq_some_iff.1 hab
      exact AddCall.fn_name hp) hf
  refine ⟨⟨⟨fns, gen⟩, data⟩, hvars, ⟨env, he, hf, hd⟩, ?_, ⟨?_, ⟨m, g1⟩, g3⟩⟩
  · simp only [hnames]; exact hsyms
  · simp only [hnames]
    rw [List.append_assoc] at hsyms
    exact (List.nodup_append.1 hsyms).1

/-! ## Instances -/

instance (name : FnName) (vars : List FnName) (ms : List Method) : Decidable (MembersOK name vars ms) :=
  decidable_of_iff (vars.Nodup ∧ (∀ m ∈ ms, m.name ∉ vars) ∧ (name ∉ vars ∧ ∀ m ∈ ms, m.name ≠ name) ∧
      (ms.map fun m => (m.name, m.kind, m.ty)).Nodup ∧ ∀ m ∈ ms, m.name ∉ cppKeywords)
    ⟨fun ⟨a, b, c, d, e⟩ => ⟨a, b, c, d, e⟩, fun ⟨a, b, c, d, e⟩ => ⟨a, b, c, d, e⟩⟩

instance (c : PortalClass) : Decidable c.Compiles := inferInstanceAs (Decidable (MembersOK ..))
instance (c : PrecompClass) : Decidable c.Compiles := inferInstanceAs (Decidable (MembersOK ..))

/-- A test of what is generated for the first file. -/
def Out.testGen (o : Out Scope) (P : Scope → SrcGen → Bool) : Bool :=
  o.test fun sc => match genFile [] sc 0 with
    | some s => P sc s
    | none => false

theorem Out.testGen_ok {o : Out Scope} {P : Scope → SrcGen → Bool} (h : o.testGen P = true) :
    ∃ sc s, o = .ok sc ∧ genFile [] sc 0 = some s ∧ P sc s = true := by
  obtain ⟨sc, h1, h2⟩ := Out.test_ok h
  split at h2
  · rename_i s hs; exact ⟨sc, s, h1, hs, h2⟩
  · cases h2

/-- Names that the compiler accepts and the generated class cannot have: members are named `ctx_`, `proto_` and
`portal_`, the member of `f` has the name of the method `f_`, two coders have one name, or the name is a keyword or that
of the class. -/
theorem C50_violated_class : ∃ (fs : FileSys) (sc : Scope) (s : SrcGen), elabRoot fs false 0 = .ok sc ∧
    genFile [] sc 0 = some s ∧
    sc.portals.map (fun q => q.2.names) =
      [["ctx"], ["proto"], ["portal"], ["f", "f_"], ["f", "f"], ["new"], ["V"]].map (·.map String.toList) ∧
    s.portals.length = 7 ∧ ∀ c ∈ s.portals, ¬ c.Compiles := by
  obtain ⟨sc, s, h1, h2, h3⟩ := Out.testGen_ok (o := elabRoot (C48_one "struct M{x:uint8;}specification S:M;
portal P:S{sizer ctx:M;}portal Q:S{encoder proto:M;}portal R:S{decoder portal:M;}portal T:S{encoder f:M;encoder f_:M;}
portal U:S{sizer f:M;encoder f:M;}portal W:S{encoder new:M;}portal V:S{encoder V:M;}") false 0)
    (P := fun sc s => decide (sc.portals.map (fun q => q.2.names) =
        [["ctx"], ["proto"], ["portal"], ["f", "f_"], ["f", "f"], ["new"], ["V"]].map (·.map String.toList) ∧
      s.portals.length = 7 ∧ ∀ c ∈ s.portals, ¬ c.Compiles)) (by decide +kernel)
  exact ⟨_, sc, s, h1, h2, of_decide_eq_true h3⟩

/-- A coder named `memcpy`: the class compiles, but there are no objects of it. -/
theorem C50_violated_memcpy : ∃ (fs : FileSys) (sc : Scope) (s : SrcGen) (c : PortalClass),
    elabRoot fs false 0 = .ok sc ∧ genFile [] sc 0 = some s ∧ s.portals = [c] ∧ c.Compiles ∧
    ∀ base p o, ¬ Constructed base sc.hostTy c p o := by
  obtain ⟨sc, s, h1, h2, h3⟩ := Out.testGen_ok (o := elabRoot (C48_one "struct M{x:uint8;}specification S:M;
portal P:S{encoder memcpy:M;}") false 0)
    (P := fun sc s => match s.portals with
      | [c] => decide (c.Compiles ∧ c.adds.map AddCall.name = ["memcpy".toList])
      | _ => false) (by decide +kernel)
  split at h3
  · rename_i c hc
    obtain ⟨h4, h5⟩ := of_decide_eq_true h3
    refine ⟨_, sc, s, c, h1, h2, hc, h4, fun base p o ho => ho.libc ?_⟩
    rw [mapM_map (fun a b hab => AddCall.fn_name hab) ho.fns, h5]
    exact List.mem_cons_self
  · cases h3

/-- An encoder for an alias of an integer: nothing describes the C++ type, which is the integer itself. -/
theorem C50_violated_integer : ∃ (fs : FileSys) (sc : Scope) (s : SrcGen) (c : PortalClass),
    elabRoot fs false 0 = .ok sc ∧ genFile [] sc 0 = some s ∧ s.portals = [c] ∧ c.Compiles ∧
    ∀ base p o, ¬ Constructed base sc.hostTy c p o := by
  obtain ⟨sc, s, h1, h2, h3⟩ := Out.testGen_ok (o := elabRoot (C48_one "type I=int32;struct M{x:I;}specification S:M;
portal P:S{encoder enc:I;}") false 0)
    (P := fun sc s => match s.portals with
      | [c] => decide (c.Compiles ∧ c.adds.map AddCall.ty = [sid ["I"]] ∧ sc.hostTy (sid ["I"]) = none)
      | _ => false) (by decide +kernel)
  split at h3
  · rename_i c hc
    obtain ⟨h4, h5, h6⟩ := of_decide_eq_true h3
    refine ⟨_, sc, s, c, h1, h2, hc, h4, fun base p o ho => ?_⟩
    have hf := ho.fns
    cases ha : c.adds with
    | nil => rw [ha] at h5; cases h5
    | cons a r =>
      rw [ha] at h5 hf
      simp only [List.map_cons, List.cons.injEq] at h5
      obtain ⟨b, _, hb⟩ := mapM_get hf a List.mem_cons_self
      have : (sc.hostTy a.ty).isSome := by
        cases a <;> simp only [AddCall.fn, Option.map_eq_some_iff] at hb <;> obtain ⟨t, ht, _⟩ := hb <;>
          simp only [AddCall.ty, ht, Option.isSome_some]
      rw [h5.1, h6] at this
      cases this
  · cases h3

/-- A specification for an alias of a vector is accepted, and crashes the compiler when source is written. -/
theorem C50_violated_head : ∃ (fs : FileSys) (sc : Scope), elabRoot fs false 0 = .ok sc ∧ genFile [] sc 0 = none ∧
    sc.specs.map (·.1) = [sid ["S"]] := by
  obtain ⟨sc, h, ht⟩ := Out.test_ok (o := elabRoot (C48_one "type V=uint8[:];specification S:V;") false 0)
    (P := fun sc => decide ((genFile [] sc 0).isNone ∧ sc.specs.map (·.1) = [sid ["S"]])) (by decide +kernel)
  obtain ⟨h1, h2⟩ := of_decide_eq_true ht
  exact ⟨_, sc, h, Option.isNone_iff_eq_none.1 h1, h2⟩

/-- What a program that precompiles needs of the names. -/
theorem Precompiled.symbols {base D s im} (h : Precompiled base D s im) :
    (s.adds.map (·.2.name) ++ s.schemas.map (·.1) ++ s.schemas.map (·.2.1)).Nodup := by
  obtain ⟨env, _, h2, _⟩ := h.run
  have := h.names
  rwa [mapM_map (g := (·.1)) (k := fun a : FnName × AddCall => a.2.name) (fun a b hab => by
    obtain ⟨p, _, hp⟩ := Option.bind_eq_some_iff.1 hab
    exact AddCall.fn_name hp) h2] at this

/-- Precompiled portals with different names whose symbols are the same: coder `c_d` of `a.b`, coder `d` of `a.b_c`.
The object file cannot have both. -/
theorem C50_violated_symbols : ∃ (fs : FileSys) (sc : Scope) (s : SrcGen), elabRoot fs false 0 = .ok sc ∧
    genFile [] sc 0 = some s ∧ (∀ c ∈ s.precomps, c.Compiles) ∧
    s.precomps.map (·.name) = [sid ["a", "b"], sid ["a", "b_c"]] ∧ ∀ base im, ¬ Precompiled base sc.hostTy s im := by
  obtain ⟨sc, s, h1, h2, h3⟩ := Out.testGen_ok (o := elabRoot (C48_one "space a{struct M{x:uint8;}specification S:M;
portal P:S{encoder c_d:M;}portal Q:S{encoder d:M;}precompile b:P(S);precompile b_c:Q(S);}") false 0)
    (P := fun sc s => decide ((∀ c ∈ s.precomps, c.Compiles) ∧
      s.precomps.map (·.name) = [sid ["a", "b"], sid ["a", "b_c"]] ∧ ¬ (s.adds.map fun a : FnName × AddCall => a.2.name).Nodup)) (by decide +kernel)
  obtain ⟨h4, h5, h6⟩ := of_decide_eq_true h3
  refine ⟨_, sc, s, h1, h2, h4, h5, fun base im h => h6 ?_⟩
  have := h.symbols
  rw [List.append_assoc] at this
  exact (List.nodup_append.1 this).1

/-- Specifications with different names for which `main` declares the same variable: `a_b` and `a.b`. -/
theorem C50_violated_variable : ∃ (fs : FileSys) (sc : Scope) (s : SrcGen), elabRoot fs false 0 = .ok sc ∧
    genFile [] sc 0 = some s ∧ sc.specs.map (·.1) = [sid ["a_b"], sid ["a", "b"]] ∧
    ∀ base im, ¬ Precompiled base sc.hostTy s im := by
  obtain ⟨sc, s, h1, h2, h3⟩ := Out.testGen_ok (o := elabRoot (C48_one "struct M{x:uint8;}specification a_b:M;
space a{specification b:M;}portal P:a_b{encoder e:M;}precompile Q:P(a_b);") false 0)
    (P := fun sc s => decide (sc.specs.map (·.1) = [sid ["a_b"], sid ["a", "b"]] ∧ ¬ (s.plans.map PlanLine.var).Nodup))
    (by decide +kernel)
  obtain ⟨h4, h5⟩ := of_decide_eq_true h3
  exact ⟨_, sc, s, h1, h2, h4, fun base im h => h5 h.vars⟩

/-- The portal of the sample. -/
def C50_sample_portal : Portal :=
  ⟨[⟨"siz".toList, sid ["app", "Msg"], [], true⟩], [⟨"enc".toList, sid ["app", "Msg"], ["v".toList, "a".toList]⟩],
    [⟨"dec".toList, sid ["app", "Msg"], [["v".toList, "a".toList], ["v".toList, "b".toList]]⟩], sid ["app", "S"]⟩

/-- The functions that a class for `q` adds are not too many. -/
def fewFns (sc : Scope) (q : Portal) (p : Proto) : Bool :=
  match (portalAdds (fun n => n) q).mapM (AddCall.fn sc.hostTy p) with
  | some fns => decide (todoWeight (fns.map fun f => f.2.entry f.1) < 2 ^ 31)
  | none => false

/-- The functions that the program adds are not too many. -/
def fewMain (sc : Scope) (s : SrcGen) : Bool :=
  match s.plans.mapM (PlanLine.run sc.hostTy) with
  | some env =>
    match s.adds.mapM (fun a => (env.lookup a.1).bind fun p => a.2.fn sc.hostTy p) with
    | some fns => decide (todoWeight (fns.map fun f => f.2.entry f.1) < 2 ^ 31)
    | none => false
  | none => false

theorem C50_sample_gen : ∃ sc s, elabRoot C48_sample false 0 = .ok sc ∧ genFile [] sc 0 = some s ∧
    sid ["app", "P"] ∈ (sc.files 0).portals.map (·.1) ∧ (sid ["app", "P"], C50_sample_portal) ∈ sc.portals ∧
    (∀ x ∈ sc.specs, x.2.1.name? ≠ none) ∧
    (∀ c ∈ s.portals, match c.planned sc.hostTy with
      | some p => fewFns sc C50_sample_portal p = true
      | none => False) ∧
    (sid ["app", "Q"], sid ["app", "P"], sid ["app", "S"]) ∈ (sc.files 0).precomps ∧
    (s.precomps.length = 1 ∧ ∀ c ∈ s.precomps, c.Compiles) ∧ fewMain sc s = true ∧ (s.plans.map PlanLine.var).Nodup ∧
    (s.adds.map (fun a : FnName × AddCall => a.2.name) ++ s.schemas.map (fun a => a.1) ++
      s.schemas.map (fun a => a.2.1)).Nodup ∧
    (∀ a ∈ s.adds, a.2.ty = sid ["app", "Msg"]) ∧
    (sid ["app", "S"], C48_sample_msg, ["v".toList, "_".toList]) ∈ sc.specs ∧
    (∀ x ∈ sc.specs, match x.2.1.sty with
      | some k => (plan (describe k) x.2.2).isSome = true
      | none => False) := by
  obtain ⟨sc, s, h1, h2, h3⟩ := Out.testGen_ok (o := elabRoot C48_sample false 0) (P := fun sc s =>
    decide (sid ["app", "P"] ∈ (sc.files 0).portals.map (·.1)) &&
    decide ((sid ["app", "P"], C50_sample_portal) ∈ sc.portals) &&
    decide (∀ x ∈ sc.specs, x.2.1.name? ≠ none) &&
    (s.portals.all fun c => match c.planned sc.hostTy with
      | some p => fewFns sc C50_sample_portal p
      | none => false) &&
    decide ((sid ["app", "Q"], sid ["app", "P"], sid ["app", "S"]) ∈ (sc.files 0).precomps) &&
    decide (s.precomps.length = 1 ∧ ∀ c ∈ s.precomps, c.Compiles) && fewMain sc s &&
    decide (s.plans.map PlanLine.var).Nodup &&
    decide (s.adds.map (fun a : FnName × AddCall => a.2.name) ++ s.schemas.map (fun a => a.1) ++
      s.schemas.map (fun a => a.2.1)).Nodup &&
    decide (∀ a ∈ s.adds, a.2.ty = sid ["app", "Msg"]) &&
    decide ((sid ["app", "S"], C48_sample_msg, ["v".toList, "_".toList]) ∈ sc.specs) &&
    sc.specs.all fun x => match x.2.1.sty with
      | some k => (plan (describe k) x.2.2).isSome
      | none => false) (by decide +kernel)
  simp only [Bool.and_eq_true, decide_eq_true_eq, List.all_eq_true, and_assoc] at h3
  obtain ⟨a1, a2, a3, a4, a5, a6, a6', a7, a8, a9, a10, a11, a12⟩ := h3
  refine ⟨sc, s, h1, h2, a1, a2, a3, fun c hc => ?_, a5, ⟨a6, a6'⟩, a7, a8, a9, a10, a11, fun x hx => ?_⟩
  · have := a4 c hc
    cases hp : c.planned sc.hostTy with
    | none => rw [hp] at this; cases this
    | some p => rw [hp] at this; exact this
  · have := a12 x hx
    cases hp : x.2.1.sty with
    | none => rw [hp] at this; cases this
    | some p => rw [hp] at this; exact this

/-- The class of the sample compiles, an object can be constructed with the planned protocol, and its methods are what
the portal declares. -/
example : ∃ sc s c p, elabRoot C48_sample false 0 = .ok sc ∧ genFile [] sc 0 = some s ∧ c ∈ s.portals ∧ c.Compiles ∧
    c.planned sc.hostTy = some p ∧ ∀ base, ∃ o, Constructed base sc.hostTy c p o ∧
      Serves sc p C50_sample_portal (o.size c) (o.encode c) (o.decode c) := by
  obtain ⟨sc, s, h1, h2, a1, a2, -, a4, -⟩ := C50_sample_gen
  obtain ⟨sc', hc, hd, -⟩ := C48_sample_ok
  cases h1.symm.trans hc
  obtain ⟨c, c1, c2, c3, -, c4⟩ := C50_constructs_partial _ _ _ sc h1 [] 0 s h2 _ a1 _ a2
    ⟨by decide, by decide, by decide⟩ (by
      intro x hx u hu
      have : x = sid ["app", "Msg"] := by
        revert hx; simp [C50_sample_portal]
      subst this
      have hu := nodup_fst_eq (C48_nominal _ _ _ sc h1).1 hu (c := C48_sample_msg) (by rw [hd]; simp)
      rw [hu]
      exact ⟨fun w sg => by simp [C48_sample_msg], by decide⟩)
  have := a4 c c1
  split at this
  · rename_i p hp
    refine ⟨sc, s, c, p, h1, h2, c1, c3, hp, fun base => c4 base p fun fns hf => ?_⟩
    simp only [fewFns, hf, decide_eq_true_eq] at this
    exact this
  · cases this

/-- The precompiled portal of the sample. -/
example : ∃ sc s c, elabRoot C48_sample false 0 = .ok sc ∧ genFile [] sc 0 = some s ∧ c ∈ s.precomps ∧ c.Compiles ∧
    ∀ base, ∃ im p, Precompiled base sc.hostTy s im ∧ im.data.lookup c.schema = some p ∧
      Serves sc p C50_sample_portal (c.size im) (c.encode im) (c.decode im) := by
  obtain ⟨sc, s, h1, h2, -, a2, -, -, a5, a6, a7, a8, a9, a10, a11, a12⟩ := C50_sample_gen
  obtain ⟨sc', hc, hd, -⟩ := C48_sample_ok
  cases h1.symm.trans hc
  obtain ⟨c, c1, c2, c3⟩ := C50_precompiled _ _ _ sc h1 [] 0 s h2 _ _ _ a5 _ a2 _ _ a11
  refine ⟨sc, s, c, h1, h2, c1, a6.2 c c1, fun base => ?_⟩
  obtain ⟨im, him⟩ := C50_precompiles_partial _ _ _ sc h1 [] 0 s h2 a8 a9 (fun x hx => by
      have := a12 x hx
      split at this
      · rename_i k hk; exact ⟨k, hk, this⟩
      · cases this) (by
      intro a ha u hu
      rw [a10 a ha] at hu
      have hu := nodup_fst_eq (C48_nominal _ _ _ sc h1).1 hu (c := C48_sample_msg) (by rw [hd]; simp)
      rw [hu]
      exact ⟨fun w sg => by simp [C48_sample_msg], by decide⟩) base (by
      intro env fns he hf
      simp only [fewMain, he, hf, decide_eq_true_eq] at a7
      exact a7)
  obtain ⟨k, p, _, _, h5, h6⟩ := c3 base im (a6.2 c c1) him
  exact ⟨im, p, him, h5, h6⟩

end PJ
