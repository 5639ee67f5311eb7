import Verif.Spec.Written
import Verif.Lemmas.ElabPath
import Verif.Props.C23_Paths
import Verif.Props.C24_Intern
import Verif.Lemmas.Unreflect
/-!
# Schema files: what is written is defined
-/
namespace PJ

/-! ## Names -/

theorem identOther_ascii {c : Char} (h : identOther c = true) : c.toNat < 128 ∧ c.toNat ≠ 0 := by
  simp only [identOther, identFirst, Char.isAlpha, Char.isUpper, Char.isLower, Char.isDigit, Bool.or_eq_true,
    Bool.and_eq_true, beq_iff_eq, decide_eq_true_eq, UInt32.le_iff_toNat_le, ge_iff_le] at h
  have hv : c.val.toNat = c.toNat := rfl
  rw [hv] at h
  have h0 : ('_' : Char).toNat = 95 := rfl
  rcases h with ((h | h) | h) | h
  · have e1 : ('Z'.val).toNat = 90 := rfl
    have e2 : ('A'.val).toNat = 65 := rfl
    simp at h; omega
  · simp at h; omega
  · subst h; decide
  · simp at h; omega

theorem IsIdent.all {c : Comp} (h : IsIdent c) : c ≠ [] ∧ ∀ d ∈ c, identOther d = true := by
  cases c with
  | nil => exact absurd h (by simp [IsIdent])
  | cons a r =>
    refine ⟨by simp, fun d hd => ?_⟩
    rcases List.mem_cons.1 hd with rfl | hd
    · simp only [identOther, Bool.or_eq_true]; exact .inl h.1
    · exact h.2 d hd

theorem ofNat_toNat {b : Nat} (h : identOther (Char.ofNat b) = true) : (Char.ofNat b).toNat = b := by
  by_cases hv : b.isValidChar
  · simp [Char.ofNat, hv, Char.ofNatAux, Char.toNat]
  · rw [show Char.ofNat b = Char.ofNat 0 by simp only [Char.ofNat, hv, dite_false]; rfl] at h
    exact absurd h (by decide)

theorem bytes_chars {s : Str} (h : IsIdent (Str.chars s)) : nameBytes (Str.chars s) = s := by
  have h := h.all.2
  unfold Str.chars at h
  simp only [nameBytes, Str.chars, List.map_map]
  conv => rhs; rw [← List.map_id s]
  apply List.map_congr_left
  intro b hb
  exact ofNat_toNat (h _ (List.mem_map.2 ⟨b, hb, rfl⟩))

theorem LegalName.bytes {n : SourceId} (h : LegalName n) : n.comps.map nameBytes = n := by
  simp only [SourceId.comps, List.map_map]
  conv => rhs; rw [← List.map_id n]
  apply List.map_congr_left
  intro c hc
  exact bytes_chars (h.2 c hc)

theorem LegalName.own {n : SourceId} (h : LegalName n) : n.dropLast ++ [nameBytes n.own] = n := by
  obtain ⟨h1, h2⟩ := h
  have e : n.getLast?.getD [] = n.getLast h1 := by rw [List.getLast?_eq_some_getLast h1]; rfl
  rw [SourceId.own, e, bytes_chars (h2 _ (List.getLast_mem h1)), List.dropLast_concat_getLast]

theorem LegalName.spaces {n : SourceId} (h : LegalName n) : (n.dropLast.map Str.chars).map nameBytes = n.dropLast := by
  rw [List.map_map]
  conv => rhs; rw [← List.map_id n.dropLast]
  apply List.map_congr_left
  intro c hc
  exact bytes_chars (h.2 c (List.dropLast_subset _ hc))

/-! ## Resolution -/

theorem prefix_take {α} {q l : List α} (h : q <+: l) : q = l.take q.length := by
  obtain ⟨r, rfl⟩ := h
  simp

theorem resolve_visible' {α : Type} {l : List (SourceId × α)} {space n : SourceId} {a : α} (hn : ∀ b, (n, b) ∈ l → b = a)
    (hm : (n, a) ∈ l) (hv : Visible l space n) : resolve l space n = some (n, a) := by
  cases h : resolve l space n with
  | none => exact absurd rfl ((C26_fails_iff l space n).1 h 0 (by omega) _ hm)
  | some e =>
    obtain ⟨k, hk, he, h1, _⟩ := C26_innermost l space n e h
    have hk0 : k = 0 := by
      rcases Nat.eq_zero_or_pos k with h0 | h0
      · exact h0
      · refine absurd (List.mem_map.2 ⟨e, he, h1⟩) (hv (space.take k) ?_ (List.take_prefix _ _))
        intro h2
        have := congrArg List.length h2
        simp only [List.length_take, List.length_nil] at this
        omega
    subst hk0
    simp only [List.take_zero, List.nil_append] at h1
    obtain ⟨e1, e2⟩ := e
    simp only at h1
    subst h1
    rw [hn _ he]

theorem resolve_visible {α : Type} {l : List (SourceId × α)} {space n : SourceId} {a : α} (hn : (l.map (·.1)).Nodup)
    (hm : (n, a) ∈ l) (hv : Visible l space n) : resolve l space n = some (n, a) :=
  resolve_visible' (fun _ hb => nodup_fst_eq hn hb hm) hm hv

theorem resolve_fresh {α : Type} {l : List (SourceId × α)} {space n : SourceId} (hm : n ∉ l.map (·.1))
    (hv : Visible l space n) : resolve l space n = none := by
  rw [C26_fails_iff]
  intro j hj d hd he
  have h1 : space.take j ++ n ∈ l.map (·.1) := List.mem_map.2 ⟨d, hd, he⟩
  rcases Nat.eq_zero_or_pos j with h0 | h0
  · subst h0
    exact hm (by simpa using h1)
  · refine hv (space.take j) ?_ (List.take_prefix _ _) h1
    intro h2
    have := congrArg List.length h2
    simp only [List.length_take, List.length_nil] at this
    omega

theorem findDef_fresh {α : Type} {l : List (SourceId × α)} {n : SourceId} (hm : n ∉ l.map (·.1)) : findDef l n = none :=
  findDef_none_iff.2 hm

/-! ## Types -/

theorem elabMods_append : ∀ (ms : List ModAst) (t : PTy) (m : ModAst),
    elabMods t (ms ++ [m]) = (elabMods t ms).bind fun u => elabMod u m
  | [], t, m => by
    simp only [List.nil_append, elabMods, Out.bind]
    cases elabMod t m <;> rfl
  | a :: ms, t, m => by
    simp only [List.cons_append, elabMods]
    cases elabMod t a with
    | ok u => exact elabMods_append ms u m
    | reject => rfl
    | undef => rfl

theorem elabType_append {defs space b ms m t} (h : elabType defs space ⟨b, ms⟩ = .ok t) :
    elabType defs space ⟨b, ms ++ [m]⟩ = elabMod t m := by
  simp only [elabType, Out.bind_ok] at h
  obtain ⟨u, h1, h2⟩ := h
  simp only [elabType, h1, Out.bind, elabMods_append, h2]

theorem elabInt_width {w : Nat} (s : Sign) (h : w = 1 ∨ w = 2 ∨ w = 4 ∨ w = 8) : elabInt (8 * w) s = .ok (.int w s) := by
  rcases h with rfl | rfl | rfl | rfl <;> rfl

theorem elabRef {defs : List (SourceId × PTy)} {space n : SourceId} {t : PTy} (hn : (defs.map (·.1)).Nodup)
    (hm : (n, t) ∈ defs) (hl : LegalName n) (hv : Visible defs space n) :
    elabType defs space ⟨.ref n.comps, []⟩ = .ok t := by
  simp only [elabType, elabBase, hl.bytes, resolve_visible hn hm hv, Out.some?, Out.bind, elabMods]

theorem elabType_written {defs : List (SourceId × PTy)} {space : SourceId} (hn : (defs.map (·.1)).Nodup) {t : PTy}
    (h : Usable defs space t) : elabType defs space t.written = .ok t := by
  induction h with
  | int w s h =>
    cases s <;> simp only [PTy.written, elabType, elabBase, elabInt_width _ h, Out.bind, elabMods]
  | float w h => rcases h with rfl | rfl <;> rfl
  | any => rfl
  | ref n t h1 h2 h3 _ h4 =>
    cases t <;> simp only [PTy.name?, reduceCtorEq, Option.some.injEq] at h1 <;> subst h1 <;>
      exact elabRef hn h2 h3 h4
  | array e n h1 _ ih =>
    rw [PTy.written, elabType_append ih]
    simp [elabMod, intptr, h1, Out.bind, Out.check, validateArray]
  | vector e a b h1 h2 _ ih =>
    rw [PTy.written, elabType_append ih]
    cases b with
    | none => simp [elabMod, elabLen, intptr, h1, Out.bind, Out.check, validateVector]
    | some m =>
      have h2 := h2 m rfl
      have h3 : validateVector a (m : Int) = true := by
        simp only [validateVector, Int.toNat_natCast, Bool.not_eq_true', Bool.and_eq_false_imp, decide_eq_true_eq,
          decide_eq_false_iff_not]
        omega
      simp only [elabMod, elabLen, intptr, h1, h2.2, if_true, Out.bind, Option.getD_some, h3, Out.check]

theorem elabFields_written {defs : List (SourceId × PTy)} {space : SourceId} (hn : (defs.map (·.1)).Nodup) :
    ∀ (l : List (Comp × PTy)), (∀ x ∈ l, Usable defs space x.2) →
      elabFields defs space (l.map fun x => ⟨x.1, x.2.written⟩) = .ok l
  | [], _ => rfl
  | x :: l, h => by
    simp only [List.map_cons, elabFields, elabType_written hn (h x (by simp)), Out.bind,
      elabFields_written hn l fun y hy => h y (by simp [hy])]

theorem PFields.ofList_toList : ∀ fs : PFields, PFields.ofList fs.toList = fs
  | .nil => rfl
  | .cons c t r => by simp only [PFields.toList, PFields.ofList, PFields.ofList_toList r]

theorem validateStruct_nodup {l : List Comp} (h : l.Nodup) : validateStruct l = true := (C38_struct l).2 h

theorem elabStruct_written {defs : List (SourceId × PTy)} {n : SourceId} {fs : PFields} (hn : (defs.map (·.1)).Nodup)
    (hl : LegalName n) (hf : (fs.toList.map (·.1)).Nodup) (ht : ∀ x ∈ fs.toList, Usable defs n.dropLast x.2) :
    elabStruct defs n.dropLast n.own (fs.toList.map fun x => ⟨x.1, x.2.written⟩) = .ok (.struct n fs) := by
  simp only [elabStruct, elabFields_written hn _ ht, Out.bind, validateStruct_nodup hf, Out.check, if_true, hl.own,
    PFields.ofList_toList]

/-! ## Variants -/

theorem elabTag_num {g : Nat} (h : g ≠ 0) (h' : g < 2 ^ 64) : elabTag (.num g) = .ok g := by
  simp [elabTag, h, h', Out.check, Out.bind]

/-- The line of a term. -/
def lineOf (d : Comp) (x : Comp × Nat × PTy) : FieldDecl := ⟨x.1, if x.2.1 = 0 then none else some x.2.1, decide (x.1 = d)⟩

theorem elabTerm_written {defs : List (SourceId × PTy)} {space : SourceId} (hn : (defs.map (·.1)).Nodup) (d : Comp)
    (x : Comp × Nat × PTy) (ht : x.2.2 = .unit ∨ Usable defs space x.2.2) (hr : x.2.1 < 2 ^ 64) :
    elabTerm defs space (writeTerm d x) = .ok (lineOf d x, x.2.2) := by
  by_cases h : x.2.2 = .unit <;> by_cases h0 : x.2.1 = 0
  · simp [elabTerm, writeTerm, lineOf, h, h0, Out.bind]
  · simp [elabTerm, writeTerm, lineOf, h, h0, Out.bind, elabTag_num h0 hr]
  · simp [elabTerm, writeTerm, lineOf, h, h0, Out.bind, elabType_written hn (ht.resolve_left h)]
  · simp [elabTerm, writeTerm, lineOf, h, h0, Out.bind, elabTag_num h0 hr, elabType_written hn (ht.resolve_left h)]

theorem elabTerms_written {defs : List (SourceId × PTy)} {space : SourceId} (hn : (defs.map (·.1)).Nodup) (d : Comp) :
    ∀ (l : List (Comp × Nat × PTy)), (∀ x ∈ l, (x.2.2 = .unit ∨ Usable defs space x.2.2) ∧ x.2.1 < 2 ^ 64) →
      elabTerms defs space (l.map (writeTerm d)) = .ok (l.map fun x => (lineOf d x, x.2.2))
  | [], _ => rfl
  | x :: l, h => by
    simp only [List.map_cons, elabTerms, elabTerm_written hn d x (h x (by simp)).1 (h x (by simp)).2, Out.bind,
      elabTerms_written hn d l fun y hy => h y (by simp [hy])]

theorem collectDefault_none {d : Comp} : ∀ {l : List (Comp × Nat × PTy)} (o : Option Comp), d ∉ l.map (·.1) →
    collectDefault (l.map (lineOf d)) o = some o
  | [], _, _ => rfl
  | x :: l, o, h => by
    simp only [List.map_cons, List.mem_cons, not_or] at h
    have h1 : ¬ x.1 = d := fun e => h.1 e.symm
    simp only [List.map_cons, collectDefault, lineOf, h1, decide_false, Bool.false_eq_true, if_false]
    exact collectDefault_none o h.2

theorem collectDefault_some {d : Comp} : ∀ {l : List (Comp × Nat × PTy)}, (l.map (·.1)).Nodup → d ∈ l.map (·.1) →
    collectDefault (l.map (lineOf d)) none = some (some d)
  | [], _, h => absurd h (by simp)
  | x :: l, hn, h => by
    simp only [List.map_cons, List.nodup_cons] at hn
    by_cases h1 : x.1 = d
    · simp only [List.map_cons, collectDefault, lineOf, h1, decide_true, if_true]
      exact collectDefault_none _ (h1 ▸ hn.1)
    · simp only [List.map_cons, collectDefault, lineOf, h1, decide_false, Bool.false_eq_true, if_false]
      refine collectDefault_some hn.2 ?_
      simp only [List.map_cons, List.mem_cons] at h
      exact h.resolve_left fun e => h1 e.symm

theorem assignTags_explicit (ex : Comp → Option Nat) : ∀ (l : List (Comp × Nat)) (res : List Nat) (cur : Nat),
    (∀ x ∈ l, ex x.1 = some x.2) → assignTags ex (l.map (·.1)) res cur = some l
  | [], _, _, _ => rfl
  | x :: l, res, cur, h => by
    simp only [List.map_cons, assignTags, h x (by simp),
      assignTags_explicit ex l res _ fun y hy => h y (by simp [hy])]

theorem nextFree_zero {res : List Nat} {n : Nat} (h : 0 ∉ res) : nextFree res (n + 1) 0 = some 0 := by
  simp [nextFree, h]

theorem nodup_tags_zero {l : List (Comp × Nat × PTy)} (h : (l.map (·.2.1)).Nodup) :
    l.filter (fun x => x.2.1 == 0) = [] ∨ ∃ x, x.2.1 = 0 ∧ l.filter (fun x => x.2.1 == 0) = [x] := by
  have h1 : ((l.filter (fun x => x.2.1 == 0)).map (·.2.1)).Nodup := h.sublist (List.filter_sublist.map _)
  have h2 : ∀ x ∈ l.filter (fun x => x.2.1 == 0), x.2.1 = 0 := fun x hx => by simpa using (List.mem_filter.1 hx).2
  generalize l.filter (fun x => x.2.1 == 0) = k at h1 h2
  match k, h1, h2 with
  | [], _, _ => exact .inl rfl
  | [x], _, h2 => exact .inr ⟨x, h2 x (by simp), rfl⟩
  | x :: y :: k, h1, h2 =>
    simp only [List.map_cons, List.nodup_cons, List.mem_cons, not_or] at h1
    exact absurd ((h2 x (by simp)).trans (h2 y (by simp)).symm) h1.1.1

/-- The terms as they are written. -/
def writtenOrder (l : List (Comp × Nat × PTy)) : List (Comp × Nat × PTy) :=
  l.filter (fun x => x.2.1 == 0) ++ l.filter (fun x => x.2.1 != 0)

theorem writtenOrder_perm (l : List (Comp × Nat × PTy)) : (writtenOrder l).Perm l := by
  have := List.filter_append_perm (fun x : Comp × Nat × PTy => x.2.1 == 0) l
  simpa [writtenOrder, bne] using this

theorem handle_written {l : List (Comp × Nat × PTy)} {d : Comp} (hn : (l.map (·.1)).Nodup)
    (ht : (l.map (·.2.1)).Nodup) (hd : d ∈ l.map (·.1)) :
    handleVariant ((writtenOrder l).map (lineOf d)) =
      .ok ((writtenOrder l).map fun x => (x.1, x.2.1)) (((writtenOrder l).map (·.1)).idxOf d) := by
  have hp := writtenOrder_perm l
  have hn' : ((writtenOrder l).map (·.1)).Nodup := (List.Perm.nodup_iff (hp.map _)).2 hn
  have ht' : ((writtenOrder l).map (·.2.1)).Nodup := (List.Perm.nodup_iff (hp.map _)).2 ht
  have hd' : d ∈ (writtenOrder l).map (·.1) := (hp.map _).mem_iff.2 hd
  have hname : ((writtenOrder l).map (lineOf d)).map (·.name) = (writtenOrder l).map (·.1) := by
    rw [List.map_map]; rfl
  have hex : ∀ x ∈ writtenOrder l, explicitTag ((writtenOrder l).map (lineOf d)) x.1 =
      if x.2.1 = 0 then none else some x.2.1 := by
    intro x hx
    exact explicitTag_of_mem (by rw [hname]; exact hn') (f := lineOf d x) (List.mem_map.2 ⟨x, hx, rfl⟩)
  have hres : 0 ∉ ((writtenOrder l).map (lineOf d)).filterMap
      (fun f => explicitTag ((writtenOrder l).map (lineOf d)) f.name) := by
    intro h
    obtain ⟨f, hf, h1⟩ := List.mem_filterMap.1 h
    obtain ⟨x, hx, rfl⟩ := List.mem_map.1 hf
    have h2 := hex x hx
    rw [show (lineOf d x).name = x.1 from rfl, h2] at h1
    split at h1
    · cases h1
    · rename_i h3
      exact h3 (Option.some.inj h1)
  have hasg : assignTags (explicitTag ((writtenOrder l).map (lineOf d))) ((writtenOrder l).map (·.1))
      (((writtenOrder l).map (lineOf d)).filterMap (fun f => explicitTag ((writtenOrder l).map (lineOf d)) f.name)) 0 =
      some ((writtenOrder l).map fun x => (x.1, x.2.1)) := by
    generalize ((writtenOrder l).map (lineOf d)).filterMap
      (fun f => explicitTag ((writtenOrder l).map (lineOf d)) f.name) = res at hres
    generalize explicitTag ((writtenOrder l).map (lineOf d)) = ex at hex
    have key : ∀ res cur, assignTags ex ((l.filter (fun x => x.2.1 != 0)).map (·.1)) res cur =
        some ((l.filter (fun x => x.2.1 != 0)).map fun x => (x.1, x.2.1)) := by
      intro res cur
      have := assignTags_explicit ex ((l.filter (fun x => x.2.1 != 0)).map fun x => (x.1, x.2.1)) res cur (by
        intro y hy
        obtain ⟨x, hx, rfl⟩ := List.mem_map.1 hy
        have h0 : x.2.1 ≠ 0 := by simpa using (List.mem_filter.1 hx).2
        have := hex x (by unfold writtenOrder; exact List.mem_append_right _ hx)
        simpa [h0] using this)
      rw [List.map_map] at this
      exact this
    rcases nodup_tags_zero ht with h0 | ⟨x, hx0, h0⟩
    · simp only [writtenOrder, h0, List.nil_append]
      exact key res 0
    · have hx := hex x (by unfold writtenOrder; rw [h0]; simp)
      simp only [writtenOrder, h0, List.singleton_append, List.map_cons, assignTags, hx, hx0, if_true, nextFree_zero hres, key]
  simp only [handleVariant, collectDefault_some hn' hd', declOrder, hname, hasg, declDefaultIdx]
  rw [if_pos]
  rw [C38_variant]
  simp only [List.map_map]
  exact ⟨hn', ht'⟩

theorem Pairwise.nodup_of_less {α} {f : α → Str} {l : List α} (h : l.Pairwise fun a b => (f a).less (f b) = true) :
    (l.map f).Nodup := by
  rw [List.nodup_iff_pairwise_ne, List.pairwise_map]
  refine h.imp fun {a b} hab e => ?_
  rw [e, Str.less_irrefl] at hab
  cases hab

theorem nodup_of_bytes {α} {f : α → Comp} {l : List α} (h : (l.map fun x => nameBytes (f x)).Nodup) : (l.map f).Nodup := by
  rw [List.nodup_iff_pairwise_ne, List.pairwise_map] at *
  exact h.imp fun {a b} hab e => hab (by rw [e])

theorem internVariant_id {β} (l : List (Str × β)) (d : Nat) (h : l.Pairwise fun a b => a.1.less b.1 = true)
    (hd : d < l.length) : internVariant (fun _ => false) l d = (l, d, l.all fun _ => false) := by
  have hs := sortTerms_sorted_id l.zipIdx (pairwise_zipIdx (fun a b : Str × β => Str.less b.1 a.1 = false) _ 0
    (h.imp fun {a b} hab => Str.less_asymm _ _ hab))
  have hf := findIdx_zipIdx l 0 d (by simpa using hd)
  simp only [Nat.zero_add] at hf
  simp only [internVariant, hs, hf, List.zipIdx_map_fst]

theorem intern_written {l : List (Comp × Nat × PTy)} {d : Nat}
    (hs : l.Pairwise fun a b => (nameBytes a.1).less (nameBytes b.1) = true) (hd : d < l.length) :
    internDecls ((writtenOrder l).map fun x => (x.1, x.2.1))
      (((writtenOrder l).map (·.1)).idxOf ((l.map (·.1)).getD d [])) = (l.map fun x => (x.1, x.2.1), d) := by
  have hp := writtenOrder_perm l
  have hnb : (l.map fun x => nameBytes x.1).Nodup := Pairwise.nodup_of_less hs
  have hn : (l.map (·.1)).Nodup := nodup_of_bytes hnb
  have hn' : ((writtenOrder l).map (·.1)).Nodup := (List.Perm.nodup_iff (hp.map _)).2 hn
  have hc : (l.map (·.1)).getD d [] = l[d].1 := by simp [List.getD_eq_getElem?_getD, hd]
  rw [hc]
  obtain ⟨j, hj, he⟩ := List.getElem_of_mem (hp.mem_iff.2 (List.getElem_mem hd))
  have hk : ((writtenOrder l).map (·.1)).idxOf l[d].1 = j := by
    have := hn'.idxOf_getElem j (by simpa using hj)
    rw [List.getElem_map, he] at this
    exact this
  rw [hk]
  have h1 := C24_order_independent (fun _ => false)
    (((writtenOrder l).map fun x => (x.1, x.2.1)).map fun t => (nameBytes t.1, t))
    ((l.map fun x => (x.1, x.2.1)).map fun t => (nameBytes t.1, t)) j d ((hp.map _).map _)
    (by simp only [List.map_map]; exact (List.Perm.nodup_iff (hp.map _)).2 hnb)
    (by simpa using hj) (by simpa using hd) (by simp [hj, hd, he])
  have h2 := internVariant_id ((l.map fun x => (x.1, x.2.1)).map fun t => (nameBytes t.1, t)) d
    (by simp only [List.pairwise_map]; exact hs) (by simpa using hd)
  unfold internDecls
  rw [h1, h2]
  simp only [List.map_map]
  rfl

theorem payloadOf_mem {l : List (FieldDecl × PTy)} (hn : (l.map (·.1.name)).Nodup) {f : FieldDecl} {p : PTy}
    (h : (f, p) ∈ l) : payloadOf l f.name = p := by
  unfold payloadOf
  split
  · rename_i x hx
    have h1 := List.mem_reverse.1 (List.mem_of_find?_eq_some hx)
    have h2 : x.1.name = f.name := by simpa using List.find?_some hx
    have h3 : (l.map fun x => (x.1.name, x.2)).map (·.1) = l.map (·.1.name) := by rw [List.map_map]; rfl
    exact nodup_fst_eq (l := l.map fun x => (x.1.name, x.2)) (by rw [h3]; exact hn) (a := f.name)
      (List.mem_map.2 ⟨x, h1, by rw [h2]⟩) (List.mem_map.2 ⟨_, h, rfl⟩)
  · rename_i hx
    have := List.find?_eq_none.1 hx _ (List.mem_reverse.2 h)
    simp at this

theorem PTerms.make_toList {payload : Comp → PTy} : ∀ {ts : PTerms}, (∀ x ∈ ts.toList, payload x.1 = x.2.2) →
    PTerms.make payload (ts.toList.map fun x => (x.1, x.2.1)) = ts
  | .nil, _ => rfl
  | .cons c g t r, h => by
    have h1 := h (c, g, t) (by simp [PTerms.toList])
    simp only at h1
    simp only [PTerms.toList, List.map_cons, PTerms.make, h1,
      PTerms.make_toList (ts := r) fun x hx => h x (by simp [PTerms.toList, hx])]

theorem elabVariant_written {defs : List (SourceId × PTy)} {n : SourceId} {ts : PTerms} {d : Nat} {en : Bool}
    (hn : (defs.map (·.1)).Nodup) (hl : LegalName n) (h : VariantOK defs n.dropLast ts d en) :
    elabVariant defs n.dropLast n.own (writeTerms ts d) = .ok (.variant n ts d) := by
  have hp := writtenOrder_perm ts.toList
  have hnames : (ts.toList.map (·.1)).Nodup := nodup_of_bytes (Pairwise.nodup_of_less h.sorted)
  have hnames' : ((writtenOrder ts.toList).map (·.1)).Nodup := (List.Perm.nodup_iff (hp.map _)).2 hnames
  have hd : (ts.toList.map (·.1)).getD d [] ∈ ts.toList.map (·.1) := by
    rw [List.getD_eq_getElem?_getD, List.getElem?_eq_getElem (by simpa using h.dflt)]
    exact List.getElem_mem _
  have h1 := elabTerms_written hn ((ts.toList.map (·.1)).getD d []) (writtenOrder ts.toList) fun x hx =>
    ⟨h.types x (hp.mem_iff.1 hx), h.range x (hp.mem_iff.1 hx)⟩
  have h2 : ((writtenOrder ts.toList).map fun x => (lineOf ((ts.toList.map (·.1)).getD d []) x, x.2.2)).map (·.1) =
      (writtenOrder ts.toList).map (lineOf ((ts.toList.map (·.1)).getD d [])) := by rw [List.map_map]; rfl
  have h3 := handle_written hnames h.tags hd
  have h4 := intern_written h.sorted h.dflt
  have h5 : writeTerms ts d = (writtenOrder ts.toList).map (writeTerm ((ts.toList.map (·.1)).getD d [])) := rfl
  simp only [elabVariant, h5, h1, Out.bind, h2, h3, h4, hl.own]
  rw [PTerms.make_toList]
  intro x hx
  have := payloadOf_mem (l := (writtenOrder ts.toList).map fun x => (lineOf ((ts.toList.map (·.1)).getD d []) x, x.2.2))
    (by rw [List.map_map]; exact hnames') (f := lineOf ((ts.toList.map (·.1)).getD d []) x) (p := x.2.2)
    (List.mem_map.2 ⟨x, hp.mem_iff.2 hx, rfl⟩)
  exact this

/-! ## Paths -/

theorem identOther_dot : identOther '.' = false := by decide

theorem LegalPath.wellFormed {p : Path} (h : LegalPath p) : p.WellFormed := fun c hc =>
  ⟨(h c hc).all.1, fun hd => by have := (h c hc).all.2 _ hd; rw [identOther_dot] at this; cases this⟩

theorem elabPath_written {p : Path} (h : LegalPath p) : elabPath (writePath p) = p := by
  cases p with
  | nil => rfl
  | cons c p => exact C23_parse_print _ h.wellFormed

theorem leads_check {t : PTy} {p : Path} (h : ∃ q c m ts d, p = q ++ [c] ∧ LeadsToVariant t q m ts d ∧ c ∈ ts.names) :
    checkVariantPath t p true = true := by
  have hp : p ≠ [] := by
    obtain ⟨q, c, _, _, _, rfl, _⟩ := h
    simp
  rw [checkVariantPath_iff _ _ _ hp]
  obtain ⟨q, c, m, ts, d, h1, h2, h3⟩ := h
  exact ⟨q, c, m, ts, d, h1, h2, fun _ => h3⟩

theorem Known.resolve {α : Type} {l : List (SourceId × α)} {space n : SourceId} (hn : (l.map (·.1)).Nodup)
    (h : Known l space n) : ∃ a, (n, a) ∈ l ∧ resolve l space (n.comps.map nameBytes) = some (n, a) := by
  obtain ⟨h1, h2, h3⟩ := h
  obtain ⟨⟨m, a⟩, h4, rfl⟩ := List.mem_map.1 h1
  exact ⟨a, h4, by rw [h2.bytes]; exact resolve_visible hn h4 h3⟩

/-! ## Portals -/

theorem Ends.src {defs : List (SourceId × PTy)} {space n : SourceId} {p : Path} (hn : (defs.map (·.1)).Nodup)
    (h : Ends defs space n (pathList p)) : ∃ t, resolve defs space (n.comps.map nameBytes) = some (n, t) ∧
      srcPathOK t p = true ∧ elabPath (writePath p) = p := by
  obtain ⟨t, h1, h2⟩ := h.1.resolve hn
  refine ⟨t, h2, ?_, ?_⟩
  · cases p with
    | nil => rfl
    | cons c p =>
      simp only [srcPathOK, leads_check (h.2 t h1 (c :: p) (by simp [pathList])).2, Bool.or_true]
  · cases p with
    | nil => rfl
    | cons c p => exact elabPath_written (h.2 t h1 (c :: p) (by simp [pathList])).1

theorem elabItems_append (defs space) : ∀ (a : List PortalItem) (b : List PortalItem) (q : Portal),
    elabItems defs space q (a ++ b) = (elabItems defs space q a).bind fun q => elabItems defs space q b
  | [], _, _ => rfl
  | i :: a, b, q => by
    simp only [List.cons_append, elabItems]
    cases elabItem defs space q i with
    | ok r => exact elabItems_append defs space a b r
    | reject => rfl
    | undef => rfl

theorem elabSizers_written {defs : List (SourceId × PTy)} {space : SourceId} (hn : (defs.map (·.1)).Nodup) :
    ∀ (l : List SizerOut) (q : Portal), (∀ x ∈ l, Ends defs space x.src (pathList x.path)) →
      elabItems defs space q (l.map fun x => .sizer x.name x.roundUp x.src.comps (writePath x.path)) =
        .ok { q with sizers := q.sizers ++ l }
  | [], q, _ => by simp [elabItems]
  | x :: l, q, h => by
    obtain ⟨t, h1, h2, h3⟩ := (h x (by simp)).src hn
    simp only [List.map_cons, elabItems, elabItem, h1, Out.some?, Out.bind, h3, h2, Out.check, if_true]
    rw [elabSizers_written hn l _ fun y hy => h y (by simp [hy])]
    simp

theorem elabEncoders_written {defs : List (SourceId × PTy)} {space : SourceId} (hn : (defs.map (·.1)).Nodup) :
    ∀ (l : List EncoderOut) (q : Portal), (∀ x ∈ l, Ends defs space x.src (pathList x.path)) →
      elabItems defs space q (l.map fun x => .encoder x.name x.src.comps (writePath x.path)) =
        .ok { q with encoders := q.encoders ++ l }
  | [], q, _ => by simp [elabItems]
  | x :: l, q, h => by
    obtain ⟨t, h1, h2, h3⟩ := (h x (by simp)).src hn
    simp only [List.map_cons, elabItems, elabItem, h1, Out.some?, Out.bind, h3, h2, Out.check, if_true]
    rw [elabEncoders_written hn l _ fun y hy => h y (by simp [hy])]
    simp

theorem handlers_written {l : List Path} (h : ∀ p ∈ l, LegalPath p) : (l.map Path.print).map Path.fromString = l := by
  rw [List.map_map]
  conv => rhs; rw [← List.map_id l]
  exact List.map_congr_left fun q hq => C23_parse_print _ (h q hq).wellFormed

theorem elabDecoders_written {defs : List (SourceId × PTy)} {space : SourceId} (hn : (defs.map (·.1)).Nodup) :
    ∀ (l : List DecoderOut) (q : Portal), (∀ x ∈ l, x.handlers.Nodup ∧ Ends defs space x.dst x.handlers) →
      elabItems defs space q (l.map fun x => .decoder x.name x.dst.comps (writeHandlers x.handlers)) =
        .ok { q with decoders := q.decoders ++ l }
  | [], q, _ => by simp [elabItems]
  | x :: l, q, h => by
    have hx := h x (by simp)
    obtain ⟨t, h1, h2⟩ := hx.2.1.resolve hn
    have h3 := handlers_written fun p hp => (hx.2.2 t h1 p hp).1
    have h4 : (x.handlers.all fun p => checkVariantPath t p true) = true :=
      List.all_eq_true.2 fun p hp => leads_check (hx.2.2 t h1 p hp).2
    have h5 := distinctPaths_iff.2 hx.1
    have h6 : elabItem defs space q (.decoder x.name x.dst.comps (writeHandlers x.handlers)) =
        .ok { q with decoders := q.decoders ++ [x] } := by
      obtain ⟨n, dst, hs⟩ := x
      cases hs with
      | nil => simp only [elabItem, writeHandlers, h2, Out.some?, Out.bind, h4, h5, Out.check, if_true]
      | cons p ps =>
        simp only [List.map_cons] at h3
        simp only [elabItem, writeHandlers, h2, Out.some?, Out.bind, List.map_cons, h3, h4, h5, Out.check, if_true]
    simp only [List.map_cons, elabItems, h6, Out.bind]
    rw [elabDecoders_written hn l _ fun y hy => h y (by simp [hy])]
    simp

theorem elabPortal_written {defs : List (SourceId × PTy)} {space : SourceId} {q : Portal} (hn : (defs.map (·.1)).Nodup)
    (h1 : ∀ x ∈ q.sizers, Ends defs space x.src (pathList x.path))
    (h2 : ∀ x ∈ q.encoders, Ends defs space x.src (pathList x.path))
    (h3 : ∀ x ∈ q.decoders, x.handlers.Nodup ∧ Ends defs space x.dst x.handlers) :
    elabItems defs space ⟨[], [], [], q.proto⟩ (writePortal q) = .ok q := by
  simp only [writePortal, elabItems_append, elabSizers_written hn _ _ h1, elabEncoders_written hn _ _ h2,
    elabDecoders_written hn _ _ h3, Out.bind, List.nil_append]

/-! ## Items -/

theorem elabDecl_inSpaces (asSpec imp f) : ∀ (cs : List Comp) (space : SourceId) (d : Decl) (sc : Scope),
    elabDecl asSpec imp f space (inSpaces cs d) sc = elabDecl asSpec imp f (space ++ cs.map nameBytes) d sc
  | [], space, d, sc => by simp [inSpaces]
  | c :: cs, space, d, sc => by
    simp only [inSpaces, elabDecl, elabDecls, elabDecl_inSpaces asSpec imp f cs]
    simp only [List.map_cons, List.append_assoc, List.singleton_append]
    cases elabDecl asSpec imp f (space ++ nameBytes c :: cs.map nameBytes) d sc <;> rfl

theorem define_fresh {sc : Scope} {n : SourceId} {t : PTy} (h : n ∉ sc.defs.map (·.1)) :
    sc.define n t = .ok { sc with defs := sc.defs ++ [(n, t)] } := by
  simp only [Scope.define, defineType, findDef_fresh h, Out.some?, Out.bind]

theorem Item.elab {imp : SourceId → Scope → Out (Nat × Scope)} {f : Nat} {sc : Scope} (hi : ScopeInv sc) {i : Item}
    (h : i.OK f sc) : elabDecl false imp f [] i.decl sc = .ok (i.add f sc) := by
  obtain ⟨hl, h⟩ := h
  rw [Item.decl, elabDecl_inSpaces, List.nil_append, hl.spaces]
  have ho := hl.own
  cases i with
  | alias n t =>
    simp only [Item.name] at *
    simp only [Item.inner, elabDecl, elabAlias, elabType_written hi.nodup h.2, Out.bind, ho, define_fresh h.1, Item.add,
      Bool.false_eq_true, if_false]
  | external n =>
    simp only [Item.name] at *
    simp [Item.inner, elabDecl, elabAlias, elabType, elabBase, elabMods, Out.bind, ho, define_fresh h, Item.add]
  | struct n fs ex =>
    simp only [Item.name] at *
    simp only [Item.inner, elabDecl, elabStruct_written hi.nodup hl h.2.1 fun x hx => (h.2.2 x hx).2, Out.bind, ho,
      define_fresh h.1, Item.add]
  | variant n ts d en ex =>
    simp only [Item.name] at *
    cases en <;>
    simp only [Item.inner, elabDecl, elabVariant_written hi.nodup hl h.2, Out.bind, ho, define_fresh h.1, Item.add]
  | spec n head t p =>
    simp only [Item.name] at *
    obtain ⟨h1, h2, h3, h4, h5, h6⟩ := h
    obtain ⟨u, h7, h8⟩ := h3.resolve hi.nodup
    have := nodup_fst_eq hi.nodup h7 h4
    subst this
    have h9 : specPathOK u p = true := by
      cases p with
      | nil => rfl
      | cons c p =>
        obtain ⟨q, m, ts, d, e, hq⟩ := h6 (by simp)
        rw [e]
        have := (checkVariantPath_iff u (q ++ [['_']]) false (by simp)).2 ⟨q, _, m, ts, d, rfl, hq, fun h => by cases h⟩
        simp [specPathOK, this]
    simp only [Item.inner, elabDecl, elabSpec, ho, resolve_fresh h1 h2, Option.isNone_none, Out.check, if_true, Out.bind,
      h8, Out.some?, elabPath_written h5, h9, Item.add]
  | portal n q =>
    simp only [Item.name] at *
    obtain ⟨h1, h2, h3, h4, h5, h6⟩ := h
    obtain ⟨u, h7, h8⟩ := h3.resolve hi.specsNodup
    have h9 := elabPortal_written hi.nodup (q := q) (fun x hx => (h4 x hx).2) (fun x hx => (h5 x hx).2)
      (fun x hx => (h6 x hx).2)
    simp only [Item.inner, elabDecl, elabPortal, ho, h8, Out.some?, Out.bind, h9, findDef_fresh h2, Option.isNone_none,
      Out.check, if_true, emplacePortal, findDef_fresh h1, Item.add]
  | precomp n po pr =>
    simp only [Item.name] at *
    obtain ⟨h1, h2, h3, h4, h5, h6⟩ := h
    obtain ⟨u, h7, h8⟩ := h1.resolve hi.specsNodup
    obtain ⟨e, h9, h10⟩ := List.mem_map.1 h2.1
    have h11 : resolve (sc.files f).portals n.dropLast (po.comps.map nameBytes) = some (po, ()) := by
      rw [h2.2.1.bytes]
      exact resolve_visible' (fun _ _ => rfl) (by rw [← h10]; exact h9) h2.2.2
    simp only [Item.inner, elabDecl, elabPrecomp, ho, h8, h11, Out.some?, Out.bind, resolve_fresh h3 h4,
      resolve_fresh h5 h6, Option.isNone_none, Bool.and_true, Out.check, if_true, Item.add]

theorem ItemsOK.elab {imp : SourceId → Scope → Out (Nat × Scope)} {f : Nat} : ∀ {items : List Item} {sc : Scope},
    ScopeInv sc → ItemsOK f sc items →
    elabDecls false imp f [] (items.map Item.decl) sc = .ok (items.foldl (Item.add f) sc)
  | [], _, _, _ => rfl
  | i :: is, sc, hi, h => by
    have h1 := Item.elab (imp := fun _ _ => .reject) hi h.1
    have h2 := ScopeInv.run (elabDecl_run false (fun _ _ => .reject) [] f (fun _ _ _ h => by cases h) i.decl [] sc _ h1) hi
    simp only [List.map_cons, elabDecls, Item.elab hi h.1, Out.bind, List.foldl_cons]
    exact ItemsOK.elab h2 h.2

end PJ
