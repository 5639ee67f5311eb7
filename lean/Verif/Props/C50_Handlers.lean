import Verif.Props.C50_Portals
import Verif.Props.C08_Handlers
/-!
# C50: the handlers of the methods for decoders

The method of a decoder has one parameter for each of the handlers which the portal declares, as an array
(`pj/sourcegen.cpp` 701-726), and passes `handlers.data()` on (893-896, 1048-1054).  What is called is inside of this array.
-/
namespace PJ

theorem zipIdx_lt {α : Type} {l : List α} {a : α} {i : Nat} (h : (a, i) ∈ l.zipIdx) : i < l.length ∧ l[i]? = some a := by
  have := List.mem_zipIdx_iff_getElem?.1 h
  exact ⟨(List.getElem?_eq_some_iff.1 this).1, this⟩

/-- The method of a decoder has as many handlers as are declared, and calls the one declared for some path, or none. -/
theorem C50_handlers (fs : FileSys) (asSpec : Bool) (f : Nat) (sc : Scope) (h : elabRoot fs asSpec f = .ok sc)
    (outer : SourceId) (g : Nat) (s : SrcGen) (hg : genFile outer sc g = some s) (n : SourceId)
    (hn : n ∈ (sc.files g).portals.map (·.1)) (q : Portal) (hq : (n, q) ∈ sc.portals) :
    ∃ c ∈ s.portals, c.name = n ∧ ∀ (base : FnKey → FnName) (p : Proto) (o : PortalObj), c.Compiles →
      Constructed base sc.hostTy c p o → ∀ x ∈ q.decoders, ∃ m, findMethod c.methods x.name .decode x.dst = some m ∧
        m.handlers = x.handlers.length ∧ ∃ depth, ∀ fuel, depth ≤ fuel → ∀ E msg obj buf cap mem d,
          o.decode c fuel x.name x.dst E msg obj buf cap mem = some d → ∀ i, d.called = some i →
            i < m.handlers ∧ ∃ path, x.handlers[i]? = some path := by
  have hi := ScopeInv.init.run (elabRoot_run h)
  obtain ⟨c, hc, h5, h8, _⟩ := portal_class h hg hn hq
  refine ⟨c, hc, h5, fun base p o hco hk x hx => ?_⟩
  have h3 := MembersOK.find hco (l := [_, _]) rfl (m := ⟨x.name, .decode, x.dst, x.handlers.length, memberVar x.name⟩)
    (by rw [h8.methods]; exact mem_methods_decoder hx)
  obtain ⟨_, _, _, _, depth, hd⟩ := (hk.methods h8 (hi.portals _ hq).1 hco).serves.decoders x hx
  refine ⟨_, h3, rfl, depth, fun fuel hf E msg obj buf cap mem d hr i hc => ?_⟩
  rw [hd fuel hf] at hr
  obtain ⟨path, hp⟩ := C08_index _ _ _ _ _ _ _ _ _ _ hr i hc
  exact ⟨(zipIdx_lt hp).1, path, (zipIdx_lt hp).2⟩

/-- The same for precompiled portals. -/
theorem C50_handlers_precompiled (fs : FileSys) (asSpec : Bool) (f : Nat) (sc : Scope) (h : elabRoot fs asSpec f = .ok sc)
    (outer : SourceId) (g : Nat) (s : SrcGen) (hg : genFile outer sc g = some s) (n qn pn : SourceId)
    (hn : (n, qn, pn) ∈ (sc.files g).precomps) (q : Portal) (hq : (qn, q) ∈ sc.portals) (t : PTy) (path : Path)
    (hp : (pn, t, path) ∈ sc.specs) :
    ∃ c ∈ s.precomps, c.name = n ∧ ∀ (base : FnKey → FnName) (im : PreImage), c.Compiles →
      Precompiled base sc.hostTy s im → ∀ x ∈ q.decoders, ∃ m, findMethod c.methods x.name .decode x.dst = some m ∧
        m.handlers = x.handlers.length ∧ ∃ depth, ∀ fuel, depth ≤ fuel → ∀ E msg obj buf cap mem d,
          c.decode im fuel x.name x.dst E msg obj buf cap mem = some d → ∀ i, d.called = some i →
            i < m.handlers ∧ ∃ path, x.handlers[i]? = some path := by
  obtain ⟨c, hc, h5, h6, h7⟩ := precomp_class h hg hn hq hp
  refine ⟨c, hc, h5, fun base im hco hk x hx => ?_⟩
  obtain ⟨k, p, _, _, _, hs⟩ := h7 base im hco hk
  have h3 := MembersOK.find hco (l := [_]) rfl (m := ⟨x.name, .decode, x.dst, x.handlers.length, coderSymbol outer c.name x.name⟩)
    (by rw [h6]; exact mem_methods_decoder hx)
  obtain ⟨_, _, _, _, depth, hd⟩ := hs.decoders x hx
  refine ⟨_, h3, rfl, depth, fun fuel hf E msg obj buf cap mem d hr i hc => ?_⟩
  rw [hd fuel hf] at hr
  obtain ⟨path, hp⟩ := C08_index _ _ _ _ _ _ _ _ _ _ hr i hc
  exact ⟨(zipIdx_lt hp).1, path, (zipIdx_lt hp).2⟩

/-- The class of the sample compiles and its method has two handlers; that objects of this class exist is shown with
`C50_constructs_partial`, and a message for which the second one is called with `C51_end_to_end_partial`. -/
example : ∃ sc s, elabRoot C48_sample false 0 = .ok sc ∧ genFile [] sc 0 = some s ∧
    sid ["app", "P"] ∈ (sc.files 0).portals.map (·.1) ∧ (sid ["app", "P"], C50_sample_portal) ∈ sc.portals ∧
    s.portals.length = 1 ∧ ∀ c ∈ s.portals, c.Compiles ∧
      (findMethod c.methods "dec".toList .decode (sid ["app", "Msg"])).map (·.handlers) = some 2 := by
  obtain ⟨sc, s, h1, h2, h3⟩ := Out.testGen_ok (o := elabRoot C48_sample false 0) (P := fun sc s =>
    decide (sid ["app", "P"] ∈ (sc.files 0).portals.map (·.1)) &&
    decide ((sid ["app", "P"], C50_sample_portal) ∈ sc.portals) && decide (s.portals.length = 1) &&
    decide (∀ c ∈ s.portals, c.Compiles ∧
      (findMethod c.methods "dec".toList .decode (sid ["app", "Msg"])).map Method.handlers = some 2)) (by decide +kernel)
  simp only [Bool.and_eq_true, decide_eq_true_eq, and_assoc] at h3
  exact ⟨sc, s, h1, h2, h3⟩

end PJ
