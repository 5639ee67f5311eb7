import Verif.Lemmas.Unreflect
import Verif.Spec.Any
/-!
# Reading an `Any` through the pool is reading it through the type
-/
namespace PJ

attribute [local irreducible] i32

mutual
/-- `anyRead` with the type itself. -/
def anyTy (m : Mem) : Ty → Nat → Option AVal
  | .int w s _, a => if anyWidth w then some (.int w s (intValue w s (readN m a w))) else none
  | .float w _, a => some (.float w (readN m a w))
  | .unit, _ => some .unit
  | .struct fs _ _, a =>
    match anyTyFields m fs a with
    | some vs => some (.struct vs)
    | none => none
  | .variant ts l, a =>
    if l.outline then none
    else if anyWidth l.tagW then anyTyTerm m ts.enum ts (readN m (a + l.tagOff) l.tagW) (a + l.termOff)
    else none
  | .array e n esz _, a =>
    match collect (fun i => anyTy m e (a + i * esz)) 0 n with
    | some vs => some (.seq e.isChar vs)
    | none => none
  | .vector e l, a =>
    if anyWidth l.lenSize && anyWidth l.refSize && l.mode == .pointer && l.minLen == 0 && l.ppl == 0 then
      match collect (fun i => anyTy m e (readN m (a + l.refOff) l.refSize + i * l.elemW)) 0
          (readN m (a + l.lenOff) l.lenSize) with
      | some vs => some (.seq e.isChar vs)
      | none => none
    else none
def anyTyFields (m : Mem) : Fields → Nat → Option (List (Comp × AVal))
  | .nil, _ => some []
  | .cons c o t r, a =>
    match anyTy m t (a + o), anyTyFields m r a with
    | some v, some vs => some ((c, v) :: vs)
    | _, _ => none
def anyTyTerm (m : Mem) (enum : Bool) : Terms → Nat → Nat → Option AVal
  | .nil, _, _ => none
  | .cons n g _ t r, raw, a =>
    if g = raw then
      match anyTy m t a with
      | some v => some (.variant enum raw n v)
      | none => none
    else anyTyTerm m enum r raw a
end

theorem anyFields_tree (m : Mem) (step : Int → Nat → Option AVal) (go : Ref → Option Ty) (data pos : Nat) :
    ∀ (fs : List (FieldD Ref)) (is : List Int) (fs' : Fields), is.length = fs.length →
    treeFields go fs = some fs' →
    (∀ (k : Nat) (f : FieldD Ref) (i : Int) (t : Ty), fs[k]? = some f → is[k]? = some i → go f.ty = some t → ∀ a, step (relative pos i) a = anyTy m t a) →
    anyFields step data (fs.zipWith (fun f i => ⟨f.name, f.off, relative pos i⟩) is) = anyTyFields m fs' data
  | [], is, fs', _, h, _ => by
    simp only [treeFields, Option.some.injEq] at h
    subst h
    simp [anyFields, anyTyFields]
  | f :: fs, [], fs', hl, _, _ => by simp at hl
  | f :: fs, i :: is, fs', hl, h, hs => by
    simp only [treeFields] at h
    split at h
    · rename_i t r ht hr
      cases h
      have ih := anyFields_tree m step go data pos fs is r (by simpa using hl) hr
        (fun k f i t h1 h2 => hs (k + 1) f i t (by simpa using h1) (by simpa using h2))
      simp only [List.zipWith_cons_cons, anyFields, anyTyFields, ih,
        hs 0 f i t (by simp) (by simp) ht]
      rfl
    · cases h

theorem anyTerm_tree (m : Mem) (step : Int → Nat → Option AVal) (go : Ref → Option Ty) (enum : Bool) (data raw pos : Nat) :
    ∀ (ts : List (TermD Ref Attr)) (is : List Int) (ts' : Terms), is.length = ts.length →
    treeTerms go ts = some ts' →
    (∀ (k : Nat) (f : TermD Ref Attr) (i : Int) (t : Ty), ts[k]? = some f → is[k]? = some i → go f.ty = some t → ∀ a, step (relative pos i) a = anyTy m t a) →
    (match (ts.zipWith (fun t i => (⟨t.name, t.tag, t.attrs.map reflectAttr, relative pos i⟩ :
        TermD Int PAttr)) is).find? (fun t => t.tag == raw) with
      | some t =>
        match step t.ty data with
        | some v => some (AVal.variant enum raw t.name v)
        | none => none
      | none => none) = anyTyTerm m enum ts' raw data
  | [], is, fs', _, h, _ => by
    simp only [treeTerms, Option.some.injEq] at h
    subst h
    simp [anyTyTerm]
  | f :: fs, [], fs', hl, _, _ => by simp at hl
  | f :: fs, i :: is, fs', hl, h, hs => by
    simp only [treeTerms] at h
    split at h
    · rename_i t r ht hr
      cases h
      have ih := anyTerm_tree m step go enum data raw pos fs is r (by simpa using hl) hr
        (fun k f i t h1 h2 => hs (k + 1) f i t (by simpa using h1) (by simpa using h2))
      simp only [List.zipWith_cons_cons, List.find?_cons, anyTyTerm]
      by_cases hg : f.tag = raw
      · simp only [hg, beq_self_eq_true, if_true, hs 0 f i t (by simp) (by simp) ht]
      · have hb : (f.tag == raw) = false := by simpa using hg
        simp only [hb, if_neg hg]
        exact ih
    · cases h

theorem node_flags {ctx : Ctx} {r : Ref} {is : List Int} {pos n : Nat} {e : PNode} {t : Ty}
    (he : entry ctx r is pos = some e) (ht : tree ctx n r = some t) :
    isUnitNode (some e) = t.isUnit ∧ isCharNode (some e) = t.isChar := by
  match n, ht with
  | n + 1, ht =>
  cases r with
  | nom k =>
    simp only [entry] at he
    simp only [tree] at ht
    split at he
    · cases he
    all_goals
      rename_i hd
      simp only [hd, Option.some.injEq] at he ht
      subst he
      rw [Option.map_eq_some_iff] at ht
      obtain ⟨fs', _, rfl⟩ := ht
      exact ⟨rfl, rfl⟩
  | array _ _ _ _ | vector _ _ =>
    simp only [entry] at he
    simp only [tree, Option.map_eq_some_iff] at ht
    obtain ⟨t', _, rfl⟩ := ht
    split at he <;> cases he
    exact ⟨rfl, rfl⟩
  | _ =>
    simp only [entry, Option.some.injEq] at he
    simp only [tree, Option.some.injEq] at ht
    subst he; subst ht
    exact ⟨rfl, rfl⟩

theorem enum_tree (flag : Int → Bool) (go : Ref → Option Ty) (pos : Nat) :
    ∀ (ts : List (TermD Ref Attr)) (is : List Int) (ts' : Terms), is.length = ts.length →
    treeTerms go ts = some ts' →
    (∀ (k : Nat) (f : TermD Ref Attr) (i : Int) (t : Ty), ts[k]? = some f → is[k]? = some i → go f.ty = some t →
      flag (relative pos i) = t.isUnit) →
    (ts.zipWith (fun t i => (⟨t.name, t.tag, t.attrs.map reflectAttr, relative pos i⟩ :
        TermD Int PAttr)) is).all (fun t => flag t.ty) = ts'.enum
  | [], is, ts', _, h, _ => by
    simp only [treeTerms, Option.some.injEq] at h
    subst h
    simp [Terms.enum]
  | f :: fs, [], fs', hl, _, _ => by simp at hl
  | f :: fs, i :: is, fs', hl, h, hs => by
    simp only [treeTerms] at h
    split at h
    · rename_i t r ht hr
      cases h
      have ih := enum_tree flag go pos fs is r (by simpa using hl) hr
        (fun k f i t h1 h2 => hs (k + 1) f i t (by simpa using h1) (by simpa using h2))
      simp only [List.zipWith_cons_cons, List.all_cons, Terms.enum, hs 0 f i t (by simp) (by simp) ht, ih]
    · cases h

theorem anyRead_tree (ctx : Ctx) (s : RState) (rs : List Ref) (m : Mem) (hi : RInv ctx s rs)
    (hn : ∀ r ∈ rs, NodeOK ctx r) (hlen : rs.length < 2 ^ 31) (j : Nat) :
    ∀ fuel, j < fuel → ∀ r n t, rs[j]? = some r → tree ctx n r = some t →
      ∀ a, anyRead s.pool m fuel j a = anyTy m t a := by
  induction j using Nat.strongRecOn with
  | ind j ih =>
    intro fuel hf r n t hr ht a
    match fuel, hf with
    | fuel + 1, hf =>
      have hjl := lt_of_getElem? hr
      obtain ⟨ks, h1, h2, h3, h4⟩ := hi.desc j r hr
      obtain ⟨e, he⟩ := Option.isSome_iff_exists.1 h3
      rw [he] at h4
      have hkl : (ks.map fun k => i32 (k : Nat)).length = (kids ctx r).length := by
        have := congrArg List.length h2
        simpa using this
      have hp : poolAt s.pool (j : Int) = some e := by simp [poolAt, h4]
      have hnode := hn r (List.mem_of_getElem? hr)
      have hstep : ∀ k ∈ ks, i32 ((j : Int) + relative j (i32 (k : Nat))) = (k : Int) := by
        intro k hk
        have := h1 k hk
        rw [relative_nat j k (by omega) (by omega), show (j : Int) + ((k : Int) - j) = (k : Nat) by omega]
        exact i32_small k (by omega)
      have hkid : ∀ (q : Nat) (c : Ref) (i : Int), (kids ctx r)[q]? = some c →
          (ks.map fun k => i32 (k : Nat))[q]? = some i → ∀ n t, tree ctx n c = some t →
          ∀ a, anyRead s.pool m fuel (i32 ((j : Int) + relative j i)) a = anyTy m t a := by
        intro q c i hc hq n t ht a
        rw [List.getElem?_map] at hq
        cases hk : ks[q]? with
        | none => rw [hk] at hq; cases hq
        | some k =>
          rw [hk] at hq
          simp only [Option.map_some, Option.some.injEq] at hq
          subst hq
          have hkm := List.mem_of_getElem? hk
          have hkj := h1 k hkm
          have hc' : rs[k]? = some c := by
            have := congrArg (fun l => l[q]?) h2
            simp only [List.getElem?_map, hk, hc, Option.map_some, Option.some.injEq] at this
            exact this
          rw [hstep k hkm]
          exact ih k hkj fuel (by omega) c n t hc' ht a
      have hflag : ∀ (q : Nat) (c : Ref) (i : Int), (kids ctx r)[q]? = some c →
          (ks.map fun k => i32 (k : Nat))[q]? = some i → ∀ n t, tree ctx n c = some t →
          isUnitNode (poolAt s.pool (i32 ((j : Int) + relative j i))) = t.isUnit ∧
          isCharNode (poolAt s.pool (i32 ((j : Int) + relative j i))) = t.isChar := by
        intro q c i hc hq n t ht
        rw [List.getElem?_map] at hq
        cases hk : ks[q]? with
        | none => rw [hk] at hq; cases hq
        | some k =>
          rw [hk] at hq
          simp only [Option.map_some, Option.some.injEq] at hq
          subst hq
          have hkm := List.mem_of_getElem? hk
          have hc' : rs[k]? = some c := by
            have := congrArg (fun l => l[q]?) h2
            simp only [List.getElem?_map, hk, hc, Option.map_some, Option.some.injEq] at this
            exact this
          rw [hstep k hkm]
          obtain ⟨ks', _, _, h3', h4'⟩ := hi.desc k c hc'
          obtain ⟨e', he'⟩ := Option.isSome_iff_exists.1 h3'
          rw [he'] at h4'
          have : poolAt s.pool (k : Int) = some e' := by simp [poolAt, h4']
          rw [this]
          exact node_flags he' ht
      match n, ht with
      | n + 1, ht =>
      cases r with
      | int w sg al =>
        simp only [entry, Option.some.injEq] at he
        subst he
        simp only [tree, Option.some.injEq] at ht
        subst ht
        simp only [anyRead, hp, anyTy, intValue]
      | unit =>
        simp only [entry, Option.some.injEq] at he
        subst he
        simp only [tree, Option.some.injEq] at ht
        subst ht
        simp only [anyRead, hp, anyTy]
      | float w al =>
        simp only [entry, Option.some.injEq] at he
        subst he
        simp only [tree, Option.some.injEq] at ht
        subst ht
        rcases hnode with rfl | rfl <;> simp [anyRead, hp, anyTy]
      | array e' len esz al =>
        match ks, h1, h2, hkl, hkid, hflag, he with
        | [k], _, _, _, hkid, hflag, he =>
          simp only [List.map_cons, List.map_nil, entry, Option.some.injEq] at he
          subst he
          simp only [tree, Option.map_eq_some_iff] at ht
          obtain ⟨t', ht', rfl⟩ := ht
          have := hkid 0 e' (i32 (k : Nat)) (by simp [kids]) (by simp) n t' ht'
          have hfl := (hflag 0 e' (i32 (k : Nat)) (by simp [kids]) (by simp) n t' ht').2
          simp only [anyRead, hp, anyTy, this, hfl]
          rfl
      | vector e' l =>
        match ks, h1, h2, hkl, hkid, hflag, he with
        | [k], _, _, _, hkid, hflag, he =>
          simp only [List.map_cons, List.map_nil, entry, Option.some.injEq] at he
          subst he
          simp only [tree, Option.map_eq_some_iff] at ht
          obtain ⟨t', ht', rfl⟩ := ht
          have := hkid 0 e' (i32 (k : Nat)) (by simp [kids]) (by simp) n t' ht'
          have hfl := (hflag 0 e' (i32 (k : Nat)) (by simp [kids]) (by simp) n t' ht').2
          simp only [anyRead, hp, anyTy, this, hfl]
          rfl
      | nom k =>
        simp only [entry] at he
        simp only [kids] at hkl hkid hflag
        simp only [tree] at ht
        split at he
        · cases he
        · rename_i fs sz al hd
          simp only [hd, Data.kids, Option.some.injEq] at he hkl hkid hflag ht
          subst he
          rw [Option.map_eq_some_iff] at ht
          obtain ⟨fs', hfs, rfl⟩ := ht
          simp only [anyRead, hp, anyTy]
          have := anyFields_tree m (fun i a => anyRead s.pool m fuel (i32 ((j : Int) + i)) a) (tree ctx n)
            a j fs _ fs' (by simpa using hkl) hfs
            (fun q f i t hf hq ht a => hkid q f.ty i (by simp [hf]) hq n t ht a)
          rw [← this]
          rfl
        · rename_i ts d hd
          simp only [hd, Data.kids, Option.some.injEq] at he hkl hkid hflag ht
          subst he
          rw [Option.map_eq_some_iff] at ht
          obtain ⟨ts', hts, rfl⟩ := ht
          simp only [anyRead, hp, anyTy, Bool.false_eq_true, if_false]
          have hen := enum_tree (fun i => isUnitNode (poolAt s.pool (i32 ((j : Int) + i)))) (tree ctx n) j ts _ ts'
            (by simpa using hkl) hts (fun q f i t hf hq ht => (hflag q f.ty i (by simp [hf]) hq n t ht).1)
          rw [hen]
          have := anyTerm_tree m (fun i a => anyRead s.pool m fuel (i32 ((j : Int) + i)) a) (tree ctx n) ts'.enum
            (a + d.termOff) (readN m (a + d.tagOff) d.tagW) j ts _ ts' (by simpa using hkl) hts
            (fun q f i t hf hq ht a => hkid q f.ty i (by simp [hf]) hq n t ht a)
          rw [← this]
          rfl
        · rename_i ts d hd
          simp only [hd, Data.kids, Option.some.injEq] at he hkl hkid hflag ht
          subst he
          rw [Option.map_eq_some_iff] at ht
          obtain ⟨ts', hts, rfl⟩ := ht
          simp only [anyRead, hp, anyTy, if_true]

end PJ
