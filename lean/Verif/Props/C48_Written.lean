import Verif.Lemmas.WrittenText
import Verif.Props.C48_Schema
/-!
# C48: what is written is defined

The definitions that a file is to have, in any number, of any size and in any spaces, can be written, and every text of
them defines exactly these.
-/
namespace PJ

/-- A list of items which refer to what comes before can be written, and whatever the white space and comments, the file
is accepted, and it defines exactly the items. -/
theorem C48_written (items : List Item) (h : ItemsOK 0 {} items) :
    (∃ s, Text (declToks (items.map Item.decl)) s) ∧
    ∀ s, Text (declToks (items.map Item.decl)) s → ∀ find,
      elabRoot ⟨[s], find⟩ false 0 = .ok (items.foldl (Item.add 0) {}) := by
  constructor
  · obtain ⟨s, hs⟩ := h.text
    exact ⟨s, (parse_sound hs).1⟩
  · intro s hs find
    have h1 : parseText s = some (items.map Item.decl) := parse_complete hs h.decls.2
    simp only [elabRoot, elabFile, List.contains_nil, Bool.not_false, Out.check, if_true, Out.bind,
      List.getElem?_cons_zero, Out.some?, h1]
    exact ItemsOK.elab ScopeInv.init h

/-! ## An instance -/

private def C48_p : PTy := .struct (sid ["a", "P"]) (.cons "x".toList (.array (.int 1 .unsigned) 4)
  (.cons "y".toList (.vector (.float 8) 1 (some 3)) .nil))
private def C48_vts : PTerms := .cons "p".toList 0 C48_p (.cons "q".toList 7 .unit .nil)
private def C48_v : PTy := .variant (sid ["a", "V"]) C48_vts 1
private def C48_m : PTy := .struct (sid ["M"]) (.cons "v".toList C48_v (.cons "i".toList (.int 8 .signed) .nil))

/-- Items of most kinds. -/
def C48_items : List Item := [
  .struct (sid ["a", "P"]) (.cons "x".toList (.array (.int 1 .unsigned) 4)
    (.cons "y".toList (.vector (.float 8) 1 (some 3)) .nil)) false,
  .variant (sid ["a", "V"]) C48_vts 1 false false,
  .struct (sid ["M"]) (.cons "v".toList C48_v (.cons "i".toList (.int 8 .signed) .nil)) true,
  .spec (sid ["S"]) (sid ["M"]) C48_m ["v".toList, "_".toList],
  .portal (sid ["a", "Q"]) ⟨[⟨"s".toList, sid ["M"], [], true⟩], [⟨"e".toList, sid ["M"], ["v".toList, "p".toList]⟩],
    [⟨"d".toList, sid ["M"], [["v".toList, "p".toList], ["v".toList, "q".toList]]⟩], sid ["S"]⟩,
  .precomp (sid ["R"]) (sid ["a", "Q"]) (sid ["S"])]

private instance (c : Comp) : Decidable (IsIdent c) := by
  cases c <;> unfold IsIdent <;> infer_instance
private instance (n : SourceId) : Decidable (LegalName n) := by unfold LegalName; infer_instance
private instance (p : Path) : Decidable (LegalPath p) := by unfold LegalPath; infer_instance

private theorem visible_of {α} {l : List (SourceId × α)} {space n : SourceId}
    (h : ∀ k < space.length, space.take (k + 1) ++ n ∉ l.map (·.1)) : Visible l space n := by
  intro q hq hp
  have hl : 0 < q.length := List.length_pos_iff.2 hq
  have h1 := hp.length_le
  have h2 := h (q.length - 1) (by omega)
  rwa [show q.length - 1 + 1 = q.length by omega, ← prefix_take hp] at h2

private theorem known_of {α} {l : List (SourceId × α)} {space n : SourceId} (h1 : n ∈ l.map (·.1)) (h2 : LegalName n)
    (h : ∀ k < space.length, space.take (k + 1) ++ n ∉ l.map (·.1)) : Known l space n := ⟨h1, h2, visible_of h⟩

private theorem refName_of {c : Comp} (h : ∀ d ∈ c.head?, d ≠ 'u' ∧ d ≠ 'i' ∧ d ≠ 'c' ∧ d ≠ 'f') (h0 : c ≠ Kw.chars .any) :
    RefName c := by
  refine ⟨fun b d r e => ?_, h0⟩
  subst e
  have := h (b.chars.headD ' ') (by cases b <;> rfl)
  cases b <;> simp [Builtin.chars] at this

private theorem usable_ref {defs : List (SourceId × PTy)} {space n : SourceId} {t : PTy} (h1 : t.name? = some n)
    (h2 : (n, t) ∈ defs) (h3 : LegalName n)
    (h4 : ∀ c ∈ n.head?, (∀ d ∈ (Str.chars c).head?, d ≠ 'u' ∧ d ≠ 'i' ∧ d ≠ 'c' ∧ d ≠ 'f') ∧ Str.chars c ≠ Kw.chars .any)
    (h5 : ∀ k < space.length, space.take (k + 1) ++ n ∉ defs.map (·.1)) : Usable defs space t :=
  .ref n t h1 h2 h3 (fun c hc => refName_of (h4 c hc).1 (h4 c hc).2) (visible_of h5)

private theorem C48_leads : LeadsToVariant C48_m ["v".toList] (sid ["a", "V"]) C48_vts 1 := .field rfl (.here _ _ _)

private theorem C48_ends {defs : List (SourceId × PTy)} {space : SourceId} {ps : List Path}
    (h1 : Known defs space (sid ["M"])) (h2 : ∀ t, (sid ["M"], t) ∈ defs → t = C48_m)
    (h3 : ∀ p ∈ ps, p = ["v".toList, "p".toList] ∨ p = ["v".toList, "q".toList]) : Ends defs space (sid ["M"]) ps := by
  refine ⟨h1, fun t ht p hp => ?_⟩
  rw [h2 t ht]
  rcases h3 p hp with rfl | rfl
  · exact ⟨by decide +kernel, ["v".toList], _, _, _, _, rfl, C48_leads, by decide⟩
  · exact ⟨by decide +kernel, ["v".toList], _, _, _, _, rfl, C48_leads, by decide⟩

example : ItemsOK 0 {} C48_items := by
  refine ⟨⟨by decide +kernel, by simp, by decide +kernel, ?_⟩, ⟨by decide +kernel, by decide +kernel, ?_⟩,
    ⟨by decide +kernel, by decide +kernel, by decide +kernel, ?_⟩,
    ⟨by decide +kernel, by simp [Item.add, Scope.addDecl, Scope.upd], visible_of (by decide),
      known_of (by decide +kernel) (by decide +kernel) (by decide), ?_⟩, ⟨by decide +kernel, ?_⟩, ⟨by decide +kernel, ?_⟩, trivial⟩
  · simp only [PFields.toList, List.mem_cons, List.not_mem_nil, or_false]
    rintro x (rfl | rfl)
    · exact ⟨by decide +kernel, .array _ _ (by decide) (.int _ _ (by decide))⟩
    · exact ⟨by decide +kernel, .vector _ _ _ (by decide) (by rintro m ⟨⟩; decide) (.float _ (by decide))⟩
  · exact ⟨by decide +kernel, by decide +kernel, by decide, by decide, by decide, (by
      simp only [C48_vts, PTerms.toList, List.mem_cons, List.not_mem_nil, or_false]
      rintro x (rfl | rfl)
      · exact .inr (usable_ref (n := sid ["a", "P"]) rfl (by decide +kernel) (by decide +kernel) (by decide +kernel)
          (by decide +kernel))
      · exact .inl rfl), by simp⟩
  · simp only [PFields.toList, List.mem_cons, List.not_mem_nil, or_false]
    rintro x (rfl | rfl)
    · exact ⟨by decide +kernel, usable_ref (n := sid ["a", "V"]) rfl (by decide +kernel) (by decide +kernel)
        (by decide +kernel) (by decide +kernel)⟩
    · exact ⟨by decide +kernel, .int _ _ (by decide)⟩
  · exact ⟨by decide +kernel, by decide +kernel, fun _ => ⟨["v".toList], _, _, _, rfl, C48_leads⟩⟩
  · have hk : Known (List.foldl (Item.add 0) {} (C48_items.take 4)).defs (sid ["a"]) (sid ["M"]) :=
      known_of (by decide +kernel) (by decide +kernel) (by decide +kernel)
    have hm : ∀ t, (sid ["M"], t) ∈ (List.foldl (Item.add 0) {} (C48_items.take 4)).defs → t = C48_m := by
      intro t ht
      have : ∀ e ∈ (List.foldl (Item.add 0) {} (C48_items.take 4)).defs, e.1 = sid ["M"] → e.2 = C48_m := by decide +kernel
      exact this _ ht rfl
    refine ⟨by decide +kernel, by decide +kernel, known_of (by decide +kernel) (by decide +kernel) (by decide +kernel), ?_, ?_, ?_⟩
    · rintro x (_ | ⟨_, ⟨⟩⟩)
      exact ⟨by decide +kernel, C48_ends hk hm (by simp [pathList])⟩
    · rintro x (_ | ⟨_, ⟨⟩⟩)
      exact ⟨by decide +kernel, C48_ends hk hm (by simp [pathList])⟩
    · rintro x (_ | ⟨_, ⟨⟩⟩)
      exact ⟨by decide +kernel, by decide +kernel, C48_ends hk hm (by simp)⟩
  · exact ⟨known_of (by decide +kernel) (by decide +kernel) (by decide +kernel),
      known_of (by decide +kernel) (by decide +kernel) (by decide +kernel), by decide +kernel, visible_of (by decide +kernel),
      by decide +kernel, visible_of (by decide +kernel)⟩

end PJ
