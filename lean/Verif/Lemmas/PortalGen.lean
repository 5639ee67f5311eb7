import Verif.Model.PortalGen
import Verif.Lemmas.ElabInv
import Verif.Props.C23_Paths
import Verif.Props.C49_Module
/-!
# The classes generated for portals: what runs
-/
namespace PJ

theorem Path.Read.reparse {p : Path} (h : p.Read) : Path.fromString p.print = p := by
  obtain ⟨s, rfl⟩ := h
  exact C23_reparse s

theorem reparse_all {l : List Path} (h : ∀ p ∈ l, Path.Read p) : (l.map Path.print).map Path.fromString = l := by
  induction l with
  | nil => rfl
  | cons p l ih =>
    simp only [List.map_cons]
    rw [(h p (by simp)).reparse, ih fun q hq => h q (by simp [hq])]

/-! ## Lists -/

theorem mapM_get {α β} {f : α → Option β} : ∀ {l : List α} {r : List β}, l.mapM f = some r → ∀ a ∈ l, ∃ b ∈ r, f a = some b
  | [], _, _, a, ha => absurd ha (by simp)
  | x :: l, r, h, a, ha => by
    simp only [List.mapM_cons, Option.pure_def, Option.bind_eq_bind, Option.bind_eq_some_iff, Option.some.injEq] at h
    obtain ⟨b, h1, bs, h2, rfl⟩ := h
    rcases List.mem_cons.1 ha with rfl | ha
    · exact ⟨b, by simp, h1⟩
    · obtain ⟨c, h3, h4⟩ := mapM_get h2 a ha
      exact ⟨c, by simp [h3], h4⟩

theorem mapM_inv {α β} {f : α → Option β} : ∀ {l : List α} {r : List β}, l.mapM f = some r → ∀ b ∈ r, ∃ a ∈ l, f a = some b
  | [], _, h, b, hb => by cases h; exact absurd hb (by simp)
  | x :: l, r, h, b, hb => by
    simp only [List.mapM_cons, Option.pure_def, Option.bind_eq_bind, Option.bind_eq_some_iff, Option.some.injEq] at h
    obtain ⟨b', h1, bs, h2, rfl⟩ := h
    rcases List.mem_cons.1 hb with rfl | hb
    · exact ⟨x, by simp, h1⟩
    · obtain ⟨c, h3, h4⟩ := mapM_inv h2 b hb
      exact ⟨c, by simp [h3], h4⟩

theorem mapM_map {α β γ} {f : α → Option β} {g : β → γ} {k : α → γ} (hk : ∀ a b, f a = some b → g b = k a) :
    ∀ {l : List α} {r : List β}, l.mapM f = some r → r.map g = l.map k
  | [], _, h => by cases h; rfl
  | x :: l, r, h => by
    simp only [List.mapM_cons, Option.pure_def, Option.bind_eq_bind, Option.bind_eq_some_iff, Option.some.injEq] at h
    obtain ⟨b, h1, bs, h2, rfl⟩ := h
    simp only [List.map_cons, mapM_map hk h2, hk _ _ h1]

theorem mapM_some {α β} {f : α → Option β} : ∀ {l : List α}, (∀ a ∈ l, (f a).isSome) → ∃ r, l.mapM f = some r
  | [], _ => ⟨[], rfl⟩
  | x :: l, h => by
    obtain ⟨r, hr⟩ := mapM_some (l := l) fun a ha => h a (by simp [ha])
    obtain ⟨b, hb⟩ := Option.isSome_iff_exists.1 (h x (by simp))
    exact ⟨b :: r, by simp [List.mapM_cons, hb, hr]⟩

theorem find_key {α β} [DecidableEq β] {f : α → β} {P : α → Bool} {a : α} : ∀ {l : List α}, (l.map f).Nodup → a ∈ l → P a = true →
    (∀ b ∈ l, P b = true → f b = f a) → l.find? P = some a
  | [], _, h, _, _ => absurd h (by simp)
  | x :: l, hn, h, hp, hu => by
    simp only [List.map_cons, List.nodup_cons, List.mem_map, not_exists, not_and] at hn
    rcases List.mem_cons.1 h with rfl | h
    · rw [List.find?_cons, hp]
    · have hx : P x = false := by
        cases hx : P x with
        | false => rfl
        | true => exact absurd (hu x (by simp) hx).symm (hn.1 a h)
      rw [List.find?_cons, hx]
      exact find_key hn.2 h hp fun b hb => hu b (by simp [hb])

theorem lookup_unique {α β} [BEq α] [LawfulBEq α] {a : α} {b : β} : ∀ {l : List (α × β)}, (l.map (·.1)).Nodup → (a, b) ∈ l →
    l.lookup a = some b
  | [], _, h => absurd h (by simp)
  | (x, y) :: l, hn, h => by
    simp only [List.map_cons, List.nodup_cons, List.mem_map, not_exists, not_and] at hn
    rcases List.mem_cons.1 h with h | h
    · cases h
      simp [List.lookup]
    · have hx : (a == x) = false := by
        simp only [beq_eq_false_iff_ne, ne_eq]
        exact fun e => hn.1 _ h e
      simp only [List.lookup, hx]
      exact lookup_unique hn.2 h

theorem lookup_mem {α β} [BEq α] [LawfulBEq α] {a : α} {b : β} : ∀ {l : List (α × β)}, l.lookup a = some b → (a, b) ∈ l
  | [], h => by simp [List.lookup] at h
  | (x, y) :: l, h => by
    simp only [List.lookup] at h
    split at h
    · rename_i e
      cases h
      simp [beq_iff_eq.1 e]
    · exact List.mem_cons_of_mem _ (lookup_mem h)

/-! ## Functions -/

theorem AddCall.fn_name {D p} {a : AddCall} {b} (h : a.fn D p = some b) : b.1 = a.name := by
  cases a <;> simp only [AddCall.fn, Option.map_eq_some_iff] at h <;> obtain ⟨_, _, rfl⟩ := h <;> rfl

theorem Image.find_of {im : Image} (hn : (im.fns.map (·.1)).Nodup) {n d} (h : (n, d) ∈ im.fns) : im.find n = some d := by
  simp only [Image.find]
  rw [find_key (a := (n, d)) hn h (by simp) (by simp)]
  rfl

theorem Image.Compiled.size {base im} (h : Image.Compiled base im) {n t p path ru} (hm : (n, .size t p path ru) ∈ im.fns) :
    ∃ depth, ∀ fuel, depth ≤ fuel → ∀ S obj, im.size fuel n S obj = sizeFn ru S t p path obj := by
  obtain ⟨k, hr⟩ := h.pass
  obtain ⟨d, hd⟩ := C49_size hr h.done (host := t) (p := p) (path := path) (c := n)
    (List.mem_map.2 ⟨(n, .size t p path ru), hm, rfl⟩)
  refine ⟨d, fun fuel hf S obj => ?_⟩
  simp only [Image.size, Image.find_of h.names hm]
  exact hd fuel hf ru S obj

theorem Image.Compiled.encode {base im} (h : Image.Compiled base im) {n t p path} (hm : (n, .encode t p path) ∈ im.fns) :
    ∃ depth, ∀ fuel, depth ≤ fuel → ∀ E obj buf mem, im.encode fuel n E obj buf mem = PJ.encode E t p path obj buf mem := by
  obtain ⟨k, hr⟩ := h.pass
  obtain ⟨d, hd⟩ := C49_encode hr h.done (host := t) (p := p) (path := path) (c := n)
    (List.mem_map.2 ⟨(n, .encode t p path), hm, rfl⟩)
  refine ⟨d, fun fuel hf E obj buf mem => ?_⟩
  simp only [Image.encode, Image.find_of h.names hm]
  exact hd fuel hf E obj buf mem

theorem Image.Compiled.decode {base im} (h : Image.Compiled base im) {n t p hs} (hm : (n, .decode p t hs) ∈ im.fns) :
    ∃ depth, ∀ fuel, depth ≤ fuel → ∀ E msg obj buf cap mem,
      im.decode fuel n E msg obj buf cap mem = PJ.decode E p t hs msg obj buf cap mem := by
  obtain ⟨k, hr⟩ := h.pass
  obtain ⟨d, hd⟩ := C49_decode hr h.done (host := t) (p := p) (hs := hs) (c := n)
    (List.mem_map.2 ⟨(n, .decode p t hs), hm, rfl⟩)
  refine ⟨d, fun fuel hf E msg obj buf cap mem => ?_⟩
  simp only [Image.decode, Image.find_of h.names hm]
  exact hd fuel hf E msg obj buf cap mem

/-! ## Portals -/

theorem portalAdds_names (sym : Comp → FnName) (q : Portal) : (portalAdds sym q).map AddCall.name = q.names.map sym := by
  simp [portalAdds, Portal.names, AddCall.name, Function.comp_def]

theorem portalMethods_names (callee : Comp → FnName) (q : Portal) : (portalMethods callee q).map (·.name) = q.names := by
  simp [portalMethods, Portal.names, Function.comp_def]

theorem memberVar_inj {a b : Comp} (h : memberVar a = memberVar b) : a = b := List.append_cancel_right h

/-- The functions for the coders of a portal. -/
structure Coders (D : SourceId → Option Ty) (p : Proto) (sym : Comp → FnName) (q : Portal) (fns : List (FnName × FnDecl)) :
    Prop where
  sizers : ∀ x ∈ q.sizers, ∃ t, D x.src = some t ∧ (sym x.name, .size t p x.path x.roundUp) ∈ fns
  encoders : ∀ x ∈ q.encoders, ∃ t, D x.src = some t ∧ (sym x.name, .encode t p x.path) ∈ fns
  decoders : ∀ x ∈ q.decoders, ∃ t, D x.dst = some t ∧ (sym x.name, .decode p t (indexed x.handlers)) ∈ fns

theorem coders_of {defs D p sym q} {fns : List (FnName × FnDecl)} (hq : PortalOK defs q)
    (h : ∀ a ∈ portalAdds sym q, ∃ b ∈ fns, a.fn D p = some b) : Coders D p sym q fns where
  sizers x hx := by
    obtain ⟨b, h1, h2⟩ := h (.size x.src (sym x.name) x.path.print x.roundUp) (by
      simp only [portalAdds, List.mem_append, List.mem_map]
      exact .inl (.inl ⟨x, hx, rfl⟩))
    simp only [AddCall.fn, Option.map_eq_some_iff] at h2
    obtain ⟨t, h2, rfl⟩ := h2
    obtain ⟨_, _, _, hr⟩ := hq.sizers x hx
    rw [hr.reparse] at h1
    exact ⟨t, h2, h1⟩
  encoders x hx := by
    obtain ⟨b, h1, h2⟩ := h (.encode x.src (sym x.name) x.path.print) (by
      simp only [portalAdds, List.mem_append, List.mem_map]
      exact .inl (.inr ⟨x, hx, rfl⟩))
    simp only [AddCall.fn, Option.map_eq_some_iff] at h2
    obtain ⟨t, h2, rfl⟩ := h2
    obtain ⟨_, _, _, hr⟩ := hq.encoders x hx
    rw [hr.reparse] at h1
    exact ⟨t, h2, h1⟩
  decoders x hx := by
    obtain ⟨b, h1, h2⟩ := h (.decode x.dst (sym x.name) (x.handlers.map Path.print)) (by
      simp only [portalAdds, List.mem_append, List.mem_map]
      exact .inr ⟨x, hx, rfl⟩)
    simp only [AddCall.fn, Option.map_eq_some_iff] at h2
    obtain ⟨t, h2, rfl⟩ := h2
    obtain ⟨_, _, _, _, hr⟩ := hq.decoders x hx
    rw [reparse_all hr] at h1
    exact ⟨t, h2, h1⟩

theorem MembersOK.find {name vars ms} (h : MembersOK name vars ms) {l ms' : List Method} (he : ms = l ++ ms') {m : Method} (hm : m ∈ ms') :
    findMethod ms' m.name m.kind m.ty = some m := by
  have hn := h.overloads
  subst he
  rw [List.map_append, List.nodup_append] at hn
  refine find_key hn.2.1 hm (by simp) ?_
  intro b _ hb
  simp only [decide_eq_true_eq] at hb
  simp only [hb.1, hb.2.1, hb.2.2]

/-- The symbol behind the member of a coder. -/
theorem member_of {im : Image} {l : List Comp} (hn : (l.map memberVar).Nodup) {n : Comp} (hl : n ∈ l) {d}
    (hf : im.find n = some d) :
    (runGets im (l.map fun n => ⟨memberVar n, n⟩)).lookup (memberVar n) = some (some n) := by
  refine lookup_unique ?_ ?_
  · simp only [runGets, List.map_reverse, List.map_map, Function.comp_def]
    exact List.pairwise_reverse.2 (hn.imp Ne.symm)
  · simp only [runGets, List.mem_reverse, List.map_map, List.mem_map, Function.comp_def]
    exact ⟨n, hl, by rw [hf]; rfl⟩

theorem Portal.mem_sizer {q : Portal} {x} (h : x ∈ q.sizers) : x.name ∈ q.names := by
  simp only [Portal.names, List.mem_append, List.mem_map]
  exact .inl (.inl ⟨x, h, rfl⟩)

theorem Portal.mem_encoder {q : Portal} {x} (h : x ∈ q.encoders) : x.name ∈ q.names := by
  simp only [Portal.names, List.mem_append, List.mem_map]
  exact .inl (.inr ⟨x, h, rfl⟩)

theorem Portal.mem_decoder {q : Portal} {x} (h : x ∈ q.decoders) : x.name ∈ q.names := by
  simp only [Portal.names, List.mem_append, List.mem_map]
  exact .inr ⟨x, h, rfl⟩

theorem mem_methods_sizer {callee} {q : Portal} {x} (h : x ∈ q.sizers) :
    (⟨x.name, .size, x.src, 0, callee x.name⟩ : Method) ∈ portalMethods callee q := by
  simp only [portalMethods, List.mem_append, List.mem_map]
  exact .inl (.inl ⟨x, h, rfl⟩)

theorem mem_methods_encoder {callee} {q : Portal} {x} (h : x ∈ q.encoders) :
    (⟨x.name, .encode, x.src, 0, callee x.name⟩ : Method) ∈ portalMethods callee q := by
  simp only [portalMethods, List.mem_append, List.mem_map]
  exact .inl (.inr ⟨x, h, rfl⟩)

theorem mem_methods_decoder {callee} {q : Portal} {x} (h : x ∈ q.decoders) :
    (⟨x.name, .decode, x.dst, x.handlers.length, callee x.name⟩ : Method) ∈ portalMethods callee q := by
  simp only [portalMethods, List.mem_append, List.mem_map]
  exact .inr ⟨x, h, rfl⟩

/-- The parts of a class that come from the portal. -/
structure PortalClass.Of (c : PortalClass) (q : Portal) : Prop where
  adds : c.adds = portalAdds (fun n => n) q
  gets : c.gets = q.names.map fun n => ⟨memberVar n, n⟩
  vars : c.vars = ["ctx_".toList, "proto_".toList, "portal_".toList] ++ q.names.map memberVar
  methods : c.methods = portalMethods memberVar q

theorem portalClass_of {name q spec c} (h : portalClass name q spec = some c) :
    c.name = name ∧ spec.1.name? = some c.head ∧ c.tagPath = spec.2.print ∧ c.Of q := by
  simp only [portalClass, Option.map_eq_some_iff] at h
  obtain ⟨hd, h1, rfl⟩ := h
  exact ⟨rfl, h1, rfl, ⟨rfl, rfl, rfl, rfl⟩⟩

theorem PortalClass.Of.nodup {c q} (h : PortalClass.Of c q) (hc : c.Compiles) : (q.names.map memberVar).Nodup := by
  have := hc.nodup
  rw [h.vars] at this
  exact (List.nodup_append.1 this).2.1

theorem PortalClass.Of.target {base D c q p o} (h : PortalClass.Of c q) (hc : c.Compiles) (hk : Constructed base D c p o)
    {n k ty i d} (hm : (⟨n, k, ty, i, memberVar n⟩ : Method) ∈ portalMethods memberVar q) (hn : n ∈ q.names)
    (hf : (n, d) ∈ o.image.fns) : o.target c n k ty = some n := by
  have h1 : findMethod c.methods n k ty = some ⟨n, k, ty, i, memberVar n⟩ :=
    MembersOK.find hc (l := [_, _]) rfl (m := ⟨n, k, ty, i, memberVar n⟩) (by rw [h.methods]; exact hm)
  simp only [PortalObj.target, h1, Option.bind_some, hk.members, h.gets,
    member_of (h.nodup hc) hn (Image.find_of hk.compiled.names hf), Option.join_some]

theorem Constructed.coders {base D c q p o defs} (hk : Constructed base D c p o) (h : PortalClass.Of c q)
    (hq : PortalOK defs q) : Coders D p (fun n => n) q o.image.fns :=
  coders_of hq fun a ha => mapM_get hk.fns a (by rw [h.adds]; exact ha)

/-- What the methods of a class do that was constructed with a protocol. -/
structure Methods (D : SourceId → Option Ty) (p : Proto) (q : Portal)
    (size : Nat → FnName → SourceId → Mem → Nat → Option Nat)
    (enc : Nat → FnName → SourceId → Env → Nat → Nat → Mem → Res)
    (dec : Nat → FnName → SourceId → Env → Nat → Nat → Nat → Nat → Mem → Option Decoded) : Prop where
  sizers : ∀ x ∈ q.sizers, ∃ t, D x.src = some t ∧ ∃ depth, ∀ fuel, depth ≤ fuel → ∀ S obj,
    size fuel x.name x.src S obj = sizeFn x.roundUp S t p x.path obj
  encoders : ∀ x ∈ q.encoders, ∃ t, D x.src = some t ∧ ∃ depth, ∀ fuel, depth ≤ fuel → ∀ E obj buf mem,
    enc fuel x.name x.src E obj buf mem = encode E t p x.path obj buf mem
  decoders : ∀ x ∈ q.decoders, ∃ t, D x.dst = some t ∧ ∃ depth, ∀ fuel, depth ≤ fuel → ∀ E msg obj buf cap mem,
    dec fuel x.name x.dst E msg obj buf cap mem = decode E p t x.handlers.zipIdx msg obj buf cap mem

theorem Constructed.methods {base D c q p o defs} (hk : Constructed base D c p o) (h : PortalClass.Of c q)
    (hq : PortalOK defs q) (hc : c.Compiles) : Methods D p q (o.size c) (o.encode c) (o.decode c) where
  sizers x hx := by
    obtain ⟨t, h1, h2⟩ := (hk.coders h hq).sizers x hx
    obtain ⟨d, hd⟩ := hk.compiled.size h2
    refine ⟨t, h1, d, fun fuel hf S obj => ?_⟩
    simp only [PortalObj.size, h.target hc hk (mem_methods_sizer hx) (Portal.mem_sizer hx) h2, Option.bind_some]
    exact hd fuel hf S obj
  encoders x hx := by
    obtain ⟨t, h1, h2⟩ := (hk.coders h hq).encoders x hx
    obtain ⟨d, hd⟩ := hk.compiled.encode h2
    refine ⟨t, h1, d, fun fuel hf E obj buf mem => ?_⟩
    simp only [PortalObj.encode, h.target hc hk (mem_methods_encoder hx) (Portal.mem_encoder hx) h2]
    exact hd fuel hf E obj buf mem
  decoders x hx := by
    obtain ⟨t, h1, h2⟩ := (hk.coders h hq).decoders x hx
    obtain ⟨d, hd⟩ := hk.compiled.decode h2
    refine ⟨t, h1, d, fun fuel hf E msg obj buf cap mem => ?_⟩
    simp only [PortalObj.decode, h.target hc hk (mem_methods_decoder hx) (Portal.mem_decoder hx) h2, Option.bind_some]
    exact hd fuel hf E msg obj buf cap mem

theorem precomp_methods {base im} {c : PrecompClass} {D p outer q defs} (hq : PortalOK defs q) (hc : c.Compiles)
    (hm : c.methods = portalMethods (coderSymbol outer c.name) q) (hi : im.image.Compiled base)
    (ha : ∀ a ∈ portalAdds (coderSymbol outer c.name) q, ∃ b ∈ im.image.fns, a.fn D p = some b) :
    Methods D p q (c.size im) (c.encode im) (c.decode im) where
  sizers x hx := by
    obtain ⟨t, h1, h2⟩ := (coders_of hq ha).sizers x hx
    obtain ⟨d, hd⟩ := hi.size h2
    refine ⟨t, h1, d, fun fuel hf S obj => ?_⟩
    have h3 := MembersOK.find hc (l := [_]) rfl (m := ⟨x.name, .size, x.src, 0, coderSymbol outer c.name x.name⟩)
      (by rw [hm]; exact mem_methods_sizer hx)
    simp only [PrecompClass.size, PrecompClass.target, h3, Option.map_some, Option.bind_some]
    exact hd fuel hf S obj
  encoders x hx := by
    obtain ⟨t, h1, h2⟩ := (coders_of hq ha).encoders x hx
    obtain ⟨d, hd⟩ := hi.encode h2
    refine ⟨t, h1, d, fun fuel hf E obj buf mem => ?_⟩
    have h3 := MembersOK.find hc (l := [_]) rfl (m := ⟨x.name, .encode, x.src, 0, coderSymbol outer c.name x.name⟩)
      (by rw [hm]; exact mem_methods_encoder hx)
    simp only [PrecompClass.encode, PrecompClass.target, h3, Option.map_some]
    exact hd fuel hf E obj buf mem
  decoders x hx := by
    obtain ⟨t, h1, h2⟩ := (coders_of hq ha).decoders x hx
    obtain ⟨d, hd⟩ := hi.decode h2
    refine ⟨t, h1, d, fun fuel hf E msg obj buf cap mem => ?_⟩
    have h3 := MembersOK.find hc (l := [_]) rfl
      (m := ⟨x.name, .decode, x.dst, x.handlers.length, coderSymbol outer c.name x.name⟩)
      (by rw [hm]; exact mem_methods_decoder hx)
    simp only [PrecompClass.decode, PrecompClass.target, h3, Option.map_some, Option.bind_some]
    exact hd fuel hf E msg obj buf cap mem

/-! ## Files -/

theorem findDef_unique {α : Type} {defs : List (SourceId × α)} (hn : (defs.map (·.1)).Nodup) {n : SourceId} {a : α}
    (h : (n, a) ∈ defs) : findDef defs n = some (n, a) := by
  cases hf : findDef defs n with
  | none => exact absurd (List.mem_map.2 ⟨(n, a), h, rfl⟩) (findDef_none_iff.1 hf)
  | some e =>
    obtain ⟨h1, h2⟩ := findDef_some hf
    obtain ⟨m, b⟩ := e
    simp only at h2
    subst h2
    rw [nodup_fst_eq hn h1 h]

/-- The lines that plan. -/
theorem addProtocols_mem {outer : SourceId} : ∀ {l : List (SourceId × PTy × Path)} {seen plans},
    addProtocols outer seen l = some plans → (∀ x ∈ l, ∀ y ∈ l, x.1 = y.1 → x = y) → ∀ x ∈ l, x.1 ∉ seen →
    ∃ h, x.2.1.name? = some h ∧ (⟨flatName outer x.1, h, x.2.2.print⟩ : PlanLine) ∈ plans
  | [], _, _, _, _, x, hx, _ => absurd hx (by simp)
  | (n, t, p) :: r, seen, plans, h, hf, x, hx, hs => by
    simp only [addProtocols] at h
    split at h
    · rename_i hn
      rcases List.mem_cons.1 hx with rfl | hx
      · exact absurd hn hs
      · exact addProtocols_mem h (fun a ha b hb => hf a (by simp [ha]) b (by simp [hb])) x hx hs
    · simp only [Option.bind_eq_some_iff, Option.map_eq_some_iff] at h
      obtain ⟨hd, h1, ps, h2, rfl⟩ := h
      by_cases hxn : x.1 = n
      · have := hf x hx (n, t, p) (by simp) hxn
        subst this
        exact ⟨hd, h1, by simp⟩
      · rcases List.mem_cons.1 hx with rfl | hx
        · exact absurd rfl hxn
        · obtain ⟨h', h3, h4⟩ := addProtocols_mem h2 (fun a ha b hb => hf a (by simp [ha]) b (by simp [hb])) x hx
            (by simp only [List.mem_cons, not_or]; exact ⟨hxn, hs⟩)
          exact ⟨h', h3, by simp [h4]⟩

end PJ
