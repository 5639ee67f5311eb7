import Verif.Model.ReflectObj
/-!
# `unreflect` reads what `reflect` makes
-/
namespace PJ
namespace Refl

theorem mapAll_map {α β} {f : β → Option α} {g : α → β} (h : ∀ x, f (g x) = some x) :
    ∀ l : List α, mapAll f (l.map g) = some l
  | [] => rfl
  | x :: l => by simp [mapAll, h x, mapAll_map h l]

theorem bitsOf_bits (x : Nat) : bitsOf (bits x) = some x := by
  have h : mem (bits x) "bits_" = some (.int (8 * x)) := by rfl
  have h2 : (0 : Int) ≤ 8 * x := by omega
  have h3 : (8 * (x : Int)).toNat = 8 * x := by omega
  simp [bitsOf, h, natOf, intOf, h2, h3]

theorem natOf_nat (x : Nat) : natOf (.int x) = some x := by simp [natOf, intOf]

theorem charOf_char (c : Char) : charOf (.int c.toNat) = some c := by
  simp [charOf, natOf_nat]

theorem listOf_vec {α} {f : Val → Option α} {g : α → Val} (h : ∀ x, f (g x) = some x) (l : List α) :
    listOf f (.vec (l.map g)) = some l := mapAll_map h l

theorem charsOf_chars (c : Comp) : listOf charOf (chars c) = some c := listOf_vec charOf_char c

theorem namesOf_names (q : List Comp) : namesOf (names q) = some q := listOf_vec charsOf_chars q

theorem signOf_signV (s : Sign) : signOf (signV s) = some s := by cases s <;> decide

theorem modeOf_modeV (s : RefMode) : modeOf (modeV s) = some s := by cases s <;> decide

theorem intOf_int (x : Int) : intOf (.int x) = some x := rfl

theorem tagOf_enumerator (s : String) : tagOf (enumerator s) = some (n s) := rfl

theorem fieldOf_fieldV (f : FieldD Int) : fieldOf (fieldV f) = some f := by
  have h1 : mem (fieldV f) "type" = some (.int f.ty) := rfl
  have h2 : mem (fieldV f) "name" = some (chars f.name) := rfl
  have h3 : mem (fieldV f) "offset" = some (bits f.off) := rfl
  simp [fieldOf, h1, h2, h3, intOf_int, charsOf_chars, bitsOf_bits]

theorem attrOf_attrV (a : PAttr) : attrOf (attrV a) = some a := by
  cases a with
  | undef d =>
    have h1 : mem (.struct [(n "is_default", .int d)]) "is_default" = some (.int d) := rfl
    simp [attrOf, attrV, h1, natOf_nat]
  | split i k p d =>
    have h0 : ¬ n "vector_split" = n "undef" := by decide
    have h1 : ∀ a b c e, mem (.struct [(n "type", a), (n "inline_length", b), (n "path", c), (n "is_default", e)]) "type"
      = some a := fun _ _ _ _ => rfl
    have h2 : ∀ a b c e, mem (.struct [(n "type", a), (n "inline_length", b), (n "path", c), (n "is_default", e)])
      "inline_length" = some b := fun _ _ _ _ => rfl
    have h3 : ∀ a b c e, mem (.struct [(n "type", a), (n "inline_length", b), (n "path", c), (n "is_default", e)]) "path"
      = some c := fun _ _ _ _ => rfl
    have h4 : ∀ a b c e, mem (.struct [(n "type", a), (n "inline_length", b), (n "path", c), (n "is_default", e)])
      "is_default" = some e := fun _ _ _ _ => rfl
    have h5 : decide (n (if i then "kInline" else "kOutline") = n "kInline") = i := by cases i <;> decide
    simp only [attrOf, attrV, h0, if_false, if_true, h1, h2, h3, h4, Option.bind_some, tagOf_enumerator, natOf_nat,
      namesOf_names, h5]

theorem termOf_termV (t : TermD Int PAttr) : termOf (termV t) = some t := by
  have h1 : mem (termV t) "type" = some (.int t.ty) := rfl
  have h2 : mem (termV t) "name" = some (chars t.name) := rfl
  have h3 : mem (termV t) "tag" = some (.int t.tag) := rfl
  have h4 : mem (termV t) "attributes" = some (.vec (t.attrs.map attrV)) := rfl
  simp [termOf, h1, h2, h3, h4, intOf_int, charsOf_chars, natOf_nat, listOf_vec attrOf_attrV]

theorem maxOf_max (m : Option Nat) : maxOf (maxV m) = some m := by
  cases m with
  | none => rfl
  | some m =>
    have : ¬ (m : Int) = -1 := by omega
    simp [maxOf, maxV, intOf_int, this, natOf_nat]

theorem nodeOf_nodeV (x : PNode) : nodeOf (nodeV x) = some x := by
  cases x with
  | int w s al =>
    have h1 : ∀ a b c, mem (.struct [(n "width", a), (n "alignment", b), (n "sign", c)]) "width" = some a := fun _ _ _ => rfl
    have h2 : ∀ a b c, mem (.struct [(n "width", a), (n "alignment", b), (n "sign", c)]) "alignment" = some b :=
      fun _ _ _ => rfl
    have h3 : ∀ a b c, mem (.struct [(n "width", a), (n "alignment", b), (n "sign", c)]) "sign" = some c := fun _ _ _ => rfl
    simp only [nodeOf, nodeV, if_true, h1, h2, h3, Option.bind_some, bitsOf_bits, signOf_signV]
  | float k al =>
    have h0 : ¬ n "Float" = n "Int" := by decide
    have h1 : ∀ a b, mem (.struct [(n "width", a), (n "alignment", b)]) "width" = some a := fun _ _ => rfl
    have h2 : ∀ a b, mem (.struct [(n "width", a), (n "alignment", b)]) "alignment" = some b := fun _ _ => rfl
    have h5 : decide (n (if k then "k64" else "k32") ≠ n "k32") = k := by cases k <;> decide
    simp only [nodeOf, nodeV, h0, if_false, if_true, h1, h2, Option.bind_some, bitsOf_bits, tagOf_enumerator, h5]
  | unit => rfl
  | struct q fs sz al =>
    have g1 : ¬ n "Struct" = n "Int" := by decide
    have g2 : ¬ n "Struct" = n "Float" := by decide
    have g3 : ¬ n "Struct" = n "Unit" := by decide
    generalize hv : Val.struct [(n "name", names q), (n "fields", .vec (fs.map fieldV)), (n "size", bits sz),
      (n "alignment", bits al)] = v
    have h1 : mem v "name" = some (names q) := by subst hv; rfl
    have h2 : mem v "fields" = some (.vec (fs.map fieldV)) := by subst hv; rfl
    have h3 : mem v "size" = some (bits sz) := by subst hv; rfl
    have h4 : mem v "alignment" = some (bits al) := by subst hv; rfl
    simp only [nodeOf, nodeV, hv, g1, g2, g3, if_false, if_true, h1, h2, h3, h4, Option.bind_some, bitsOf_bits, namesOf_names,
      listOf_vec fieldOf_fieldV]
  | inl q ts d =>
    have g1 : ¬ n "InlineVariant" = n "Int" := by decide
    have g2 : ¬ n "InlineVariant" = n "Float" := by decide
    have g3 : ¬ n "InlineVariant" = n "Unit" := by decide
    have g4 : ¬ n "InlineVariant" = n "Struct" := by decide
    generalize hv : Val.struct [(n "name", names q), (n "terms", .vec (ts.map termV)), (n "default_term", .int d.dflt),
      (n "term_offset", bits d.termOff), (n "term_size", bits d.termSize), (n "tag_offset", bits d.tagOff),
      (n "tag_width", bits d.tagW), (n "size", bits d.size), (n "alignment", bits d.align)] = v
    have h1 : mem v "name" = some (names q) := by subst hv; rfl
    have h2 : mem v "terms" = some (.vec (ts.map termV)) := by subst hv; rfl
    have h3 : mem v "default_term" = some (.int d.dflt) := by subst hv; rfl
    have h4 : mem v "term_offset" = some (bits d.termOff) := by subst hv; rfl
    have h5 : mem v "term_size" = some (bits d.termSize) := by subst hv; rfl
    have h6 : mem v "tag_offset" = some (bits d.tagOff) := by subst hv; rfl
    have h7 : mem v "tag_width" = some (bits d.tagW) := by subst hv; rfl
    have h8 : mem v "size" = some (bits d.size) := by subst hv; rfl
    have h9 : mem v "alignment" = some (bits d.align) := by subst hv; rfl
    simp only [nodeOf, nodeV, hv, g1, g2, g3, g4, if_false, if_true, h1, h2, h3, h4, h5, h6, h7, h8, h9, Option.bind_some,
      bitsOf_bits, namesOf_names, listOf_vec termOf_termV, natOf_nat]
  | out q ts d =>
    have g1 : ¬ n "OutlineVariant" = n "Int" := by decide
    have g2 : ¬ n "OutlineVariant" = n "Float" := by decide
    have g3 : ¬ n "OutlineVariant" = n "Unit" := by decide
    have g4 : ¬ n "OutlineVariant" = n "Struct" := by decide
    have g5 : ¬ n "OutlineVariant" = n "InlineVariant" := by decide
    generalize hv : Val.struct [(n "name", names q), (n "terms", .vec (ts.map termV)), (n "default_term", .int d.dflt),
      (n "tag_width", bits d.tagW), (n "tag_alignment", bits d.tagAlign), (n "term_offset", bits d.termOff),
      (n "term_alignment", bits d.termAlign)] = v
    have h1 : mem v "name" = some (names q) := by subst hv; rfl
    have h2 : mem v "terms" = some (.vec (ts.map termV)) := by subst hv; rfl
    have h3 : mem v "default_term" = some (.int d.dflt) := by subst hv; rfl
    have h4 : mem v "tag_width" = some (bits d.tagW) := by subst hv; rfl
    have h5 : mem v "tag_alignment" = some (bits d.tagAlign) := by subst hv; rfl
    have h6 : mem v "term_offset" = some (bits d.termOff) := by subst hv; rfl
    have h7 : mem v "term_alignment" = some (bits d.termAlign) := by subst hv; rfl
    simp only [nodeOf, nodeV, hv, g1, g2, g3, g4, g5, if_false, if_true, h1, h2, h3, h4, h5, h6, h7, Option.bind_some,
      bitsOf_bits, namesOf_names, listOf_vec termOf_termV, natOf_nat]
  | array e k esz al =>
    have g1 : ¬ n "Array" = n "Int" := by decide
    have g2 : ¬ n "Array" = n "Float" := by decide
    have g3 : ¬ n "Array" = n "Unit" := by decide
    have g4 : ¬ n "Array" = n "Struct" := by decide
    have g5 : ¬ n "Array" = n "InlineVariant" := by decide
    have g6 : ¬ n "Array" = n "OutlineVariant" := by decide
    generalize hv : Val.struct [(n "elem", .int e), (n "length", .int k), (n "elem_size", bits esz),
      (n "alignment", bits al)] = v
    have h1 : mem v "elem" = some (.int e) := by subst hv; rfl
    have h2 : mem v "length" = some (.int k) := by subst hv; rfl
    have h3 : mem v "elem_size" = some (bits esz) := by subst hv; rfl
    have h4 : mem v "alignment" = some (bits al) := by subst hv; rfl
    simp only [nodeOf, nodeV, hv, g1, g2, g3, g4, g5, g6, if_false, if_true, h1, h2, h3, h4, Option.bind_some, bitsOf_bits,
      intOf_int, natOf_nat]
  | vector e l =>
    have g1 : ¬ n "Vector" = n "Int" := by decide
    have g2 : ¬ n "Vector" = n "Float" := by decide
    have g3 : ¬ n "Vector" = n "Unit" := by decide
    have g4 : ¬ n "Vector" = n "Struct" := by decide
    have g5 : ¬ n "Vector" = n "InlineVariant" := by decide
    have g6 : ¬ n "Vector" = n "OutlineVariant" := by decide
    have g7 : ¬ n "Vector" = n "Array" := by decide
    generalize hv : Val.struct [(n "elem", .int e), (n "elem_width", bits l.elemW), (n "min_length", .int l.minLen),
      (n "max_length", maxV l.maxLen), (n "ppl_count", .int l.ppl),
      (n "length_offset", bits l.lenOff), (n "length_size", bits l.lenSize), (n "ref_offset", bits l.refOff),
      (n "ref_size", bits l.refSize), (n "reference_mode", modeV l.mode), (n "inline_payload_offset", bits l.inlOff),
      (n "partial_payload_offset", bits l.parOff), (n "size", bits l.size), (n "alignment", bits l.align)] = v
    have h1 : mem v "elem" = some (.int e) := by subst hv; rfl
    have h2 : mem v "elem_width" = some (bits l.elemW) := by subst hv; rfl
    have h3 : mem v "min_length" = some (.int l.minLen) := by subst hv; rfl
    have h4 : mem v "max_length" = some (maxV l.maxLen) := by subst hv; rfl
    have h5 : mem v "ppl_count" = some (.int l.ppl) := by subst hv; rfl
    have h6 : mem v "length_offset" = some (bits l.lenOff) := by subst hv; rfl
    have h7 : mem v "length_size" = some (bits l.lenSize) := by subst hv; rfl
    have h8 : mem v "ref_offset" = some (bits l.refOff) := by subst hv; rfl
    have h9 : mem v "ref_size" = some (bits l.refSize) := by subst hv; rfl
    have h10 : mem v "reference_mode" = some (modeV l.mode) := by subst hv; rfl
    have h11 : mem v "inline_payload_offset" = some (bits l.inlOff) := by subst hv; rfl
    have h12 : mem v "partial_payload_offset" = some (bits l.parOff) := by subst hv; rfl
    have h13 : mem v "size" = some (bits l.size) := by subst hv; rfl
    have h14 : mem v "alignment" = some (bits l.align) := by subst hv; rfl
    simp only [nodeOf, nodeV, hv, g1, g2, g3, g4, g5, g6, g7, if_false, if_true, h1, h2, h3, h4, h5, h6, h7, h8, h9, h10, h11,
      h12, h13, h14, Option.bind_some, bitsOf_bits, intOf_int, natOf_nat, modeOf_modeV, maxOf_max]

theorem ofObj_objOf (p : PProto) : ofObj (objOf p) = some p := by
  have h1 : mem (objOf p) "pj_version" = some (.int p.version) := rfl
  have h2 : mem (objOf p) "head" = some (.int p.head) := rfl
  have h3 : mem (objOf p) "buffer_offset" = some (bits p.bufOff) := rfl
  have h4 : mem (objOf p) "types" = some (.vec (p.types.map nodeV)) := rfl
  simp [ofObj, h1, h2, h3, h4, intOf_int, natOf_nat, bitsOf_bits, listOf_vec nodeOf_nodeV]

end Refl
end PJ
