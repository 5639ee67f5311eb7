import Verif.Lemmas.Callback
/-!
# Types that never ask for buffer
-/
namespace PJ

mutual
/-- No vector and no outlined variant: everything is in the head. -/
def Ty.fixed : Ty → Prop
  | .struct fs _ _ => fs.fixed
  | .variant ts l => l.outline = false ∧ ts.fixed
  | .array e _ _ _ => e.fixed
  | .vector _ _ => False
  | _ => True
def Fields.fixed : Fields → Prop
  | .nil => True
  | .cons _ _ t r => t.fixed ∧ r.fixed
def Terms.fixed : Terms → Prop
  | .nil => True
  | .cons _ _ _ t r => t.fixed ∧ r.fixed
end

def NoThrow : Res → Prop
  | .throw _ => False
  | _ => True

theorem NoThrow.bind {r : Res} {f : St → Res} (h1 : NoThrow r) (h2 : ∀ s, NoThrow (f s)) :
    NoThrow (r.bind f) := by
  cases r with
  | ok s => exact h2 s
  | throw s => exact h1
  | ub => trivial

theorem NoThrow.loop {body : Nat → St → Res} (h : ∀ i s, NoThrow (body i s)) :
    ∀ n i st, NoThrow (loop body n i st)
  | 0, _, st => trivial
  | n + 1, i, st => by
    simp only [PJ.loop]
    exact NoThrow.bind (h i st) fun s => NoThrow.loop h n (i + 1) s

theorem NoThrow.keep {st : St} {r : Res} (h : NoThrow r) : NoThrow (keepBuf st r) :=
  NoThrow.bind h fun _ => trivial

theorem NoThrow.setCb (hm : List (Comp × Nat)) (n : Comp) (s : St) : NoThrow (setCb hm n s) := by
  unfold PJ.setCb; split <;> trivial

theorem NoThrow.beginTerm (l : VarL) (da g sz : Nat) (st : St) (h : l.outline = false) :
    NoThrow (beginTerm l da g sz st) := by
  unfold PJ.beginTerm
  refine NoThrow.bind ?_ fun s => ?_
  · unfold storeTag; split <;> trivial
  · simp only [h]; trivial

mutual
theorem dflt_nothrow (E : Env) : ∀ (t : Ty) (hs : Handlers) (da : Nat) (st : St), t.fixed →
    NoThrow (dflt E t hs da st)
  | .int _ _ _, hs, da, st, _ => by simp only [dflt]; split <;> trivial
  | .float _ _, hs, da, st, _ => by simp only [dflt]; split <;> trivial
  | .unit, hs, da, st, _ => by simp only [dflt]; trivial
  | .struct fs sz al, hs, da, st, h => by
    simp only [Ty.fixed] at h
    simp only [dflt]
    exact NoThrow.bind (dfltFields_nothrow E fs true hs da _ h) fun s =>
      dfltFields_nothrow E fs false hs da s h
  | .variant ts l, hs, da, st, h => by
    simp only [Ty.fixed] at h
    simp only [dflt]
    split
    · trivial
    · exact dfltAt_nothrow E ts l l.dflt _ da st h.1 h.2
  | .array e n esz al, hs, da, st, h => by
    simp only [Ty.fixed] at h
    simp only [dflt]
    exact NoThrow.loop (fun i s => NoThrow.keep (dflt_nothrow E e [] _ s h)) _ _ _
  | .vector e l, hs, da, st, h => absurd h (by simp [Ty.fixed])
termination_by structural t => t
theorem dfltFields_nothrow (E : Env) : ∀ (fs : Fields) (out : Bool) (hs : Handlers) (da : Nat) (st : St),
    fs.fixed → NoThrow (dfltFields E fs out hs da st)
  | .nil, out, hs, da, st, _ => by simp only [dfltFields]; trivial
  | .cons c o t r, out, hs, da, st, h => by
    simp only [Fields.fixed] at h
    simp only [dfltFields]
    refine NoThrow.bind ?_ fun s => dfltFields_nothrow E r out hs da s h.2
    split
    · exact NoThrow.keep (dflt_nothrow E t _ _ st h.1)
    · trivial
termination_by structural t => t
theorem dfltAt_nothrow (E : Env) : ∀ (ts : Terms) (l : VarL) (i : Nat) (hm : List (Comp × Nat)) (da : Nat)
    (st : St), l.outline = false → ts.fixed → NoThrow (dfltAt E ts l i hm da st)
  | .nil, l, i, hm, da, st, _, _ => by simp only [dfltAt]; trivial
  | .cons n g as t r, l, 0, hm, da, st, ho, h => by
    simp only [Terms.fixed] at h
    simp only [dfltAt]
    refine NoThrow.bind ?_ fun s => NoThrow.setCb ..
    split
    · trivial
    · trivial
    · exact NoThrow.bind (NoThrow.beginTerm l da g _ st ho) fun s =>
        NoThrow.keep (dflt_nothrow E t [] _ s h.1)
  | .cons n g as t r, l, i + 1, hm, da, st, ho, h => by
    simp only [Terms.fixed] at h
    simp only [dfltAt]
    exact dfltAt_nothrow E r l i hm da st ho h.2
termination_by structural t => t
end

mutual
theorem xcode_nothrow (E : Env) : ∀ (t src : Ty) (path : Path) (hs : Handlers) (sa da : Nat) (st : St),
    t.fixed → NoThrow (xcode E t src path hs sa da st)
  | .unit, src, path, hs, sa, da, st, _ => by simp only [xcode]; trivial
  | .int w s al, src, path, hs, sa, da, st, h => by
    cases src <;> simp only [xcode] <;> try trivial
    · split <;> trivial
    · exact NoThrow.keep (dflt_nothrow E _ _ _ _ h)
  | .float w al, src, path, hs, sa, da, st, h => by
    cases src <;> simp only [xcode] <;> try trivial
    · split <;> trivial
    · exact NoThrow.keep (dflt_nothrow E _ _ _ _ h)
  | .struct fs sz al, src, path, hs, sa, da, st, h => by
    cases src <;> simp only [xcode] <;> try trivial
    · exact NoThrow.keep (dflt_nothrow E _ _ _ _ h)
    · simp only [Ty.fixed] at h
      exact NoThrow.bind (xFields_nothrow E fs true _ path hs sa da _ h) fun s =>
        xFields_nothrow E fs false _ path hs sa da s h
  | .variant ts l, src, path, hs, sa, da, st, h => by
    cases src <;> simp only [xcode] <;> try trivial
    · exact NoThrow.keep (dflt_nothrow E _ _ _ _ h)
    · simp only [Ty.fixed] at h
      split
      · unfold xEnum
        split
        · trivial
        · split <;> trivial
      · split
        · trivial
        · split
          · trivial
          · exact xAt_nothrow E ts l l.dflt .unit _ _ da st h.1 h.2
          · split
            · exact NoThrow.bind (xNamed_nothrow E ts l _ _ _ da st h.1 h.2) fun s => NoThrow.setCb ..
            · exact xAt_nothrow E ts l l.dflt _ _ _ da st h.1 h.2
  | .array e n esz al, src, path, hs, sa, da, st, h => by
    cases src <;> simp only [xcode] <;> try trivial
    · exact NoThrow.keep (dflt_nothrow E _ _ _ _ h)
    · simp only [Ty.fixed] at h
      exact NoThrow.bind (NoThrow.loop (fun i s => xcode_nothrow E e _ [] [] _ _ s h) _ _ _)
        fun s => NoThrow.loop (fun i s => NoThrow.keep (dflt_nothrow E e [] _ s h)) _ _ _
  | .vector e l, src, path, hs, sa, da, st, h => absurd h (by simp [Ty.fixed])
termination_by structural t => t
theorem xFields_nothrow (E : Env) : ∀ (fs : Fields) (out : Bool) (sfs : Fields) (path : Path)
    (hs : Handlers) (sa da : Nat) (st : St), fs.fixed →
    NoThrow (xFields E fs out sfs path hs sa da st)
  | .nil, out, sfs, path, hs, sa, da, st, _ => by simp only [xFields]; trivial
  | .cons c o t r, out, sfs, path, hs, sa, da, st, h => by
    simp only [Fields.fixed] at h
    simp only [xFields]
    refine NoThrow.bind ?_ fun s => xFields_nothrow E r out sfs path hs sa da s h.2
    split
    · split
      · exact xcode_nothrow E t _ _ _ _ _ st h.1
      · exact NoThrow.keep (dflt_nothrow E t _ _ st h.1)
    · trivial
termination_by structural t => t
theorem xNamed_nothrow (E : Env) : ∀ (ts : Terms) (l : VarL) (c : Comp) (sty : Ty) (sa da : Nat)
    (st : St), l.outline = false → ts.fixed → NoThrow (xNamed E ts l c sty sa da st)
  | .nil, l, c, sty, sa, da, st, _, _ => by simp only [xNamed]; trivial
  | .cons n g as t r, l, c, sty, sa, da, st, ho, h => by
    simp only [Terms.fixed] at h
    simp only [xNamed]
    have hr := xNamed_nothrow E r l c sty sa da st ho h.2
    split
    · split
      · trivial
      · exact NoThrow.bind (NoThrow.beginTerm l da g _ st ho) fun s => xcode_nothrow E t sty [] [] _ _ s h.1
      · exact hr
    · exact hr
termination_by structural t => t
theorem xAt_nothrow (E : Env) : ∀ (ts : Terms) (l : VarL) (i : Nat) (sty : Ty) (hm : List (Comp × Nat))
    (sa da : Nat) (st : St), l.outline = false → ts.fixed → NoThrow (xAt E ts l i sty hm sa da st)
  | .nil, l, i, sty, hm, sa, da, st, _, _ => by simp only [xAt]; trivial
  | .cons n g as t r, l, 0, sty, hm, sa, da, st, ho, h => by
    simp only [Terms.fixed] at h
    simp only [xAt]
    refine NoThrow.bind ?_ fun s => NoThrow.setCb ..
    split
    · trivial
    · trivial
    · exact NoThrow.bind (NoThrow.beginTerm l da g _ st ho) fun s => xcode_nothrow E t sty [] [] _ _ s h.1
  | .cons n g as t r, l, i + 1, sty, hm, sa, da, st, ho, h => by
    simp only [Terms.fixed] at h
    simp only [xAt]
    exact xAt_nothrow E r l i sty hm sa da st ho h.2
termination_by structural t => t
end

/-- The path leads to a variant, and every field behind the path's field is fixed. -/
def Quiet : Path → Ty → Prop
  | [], .variant _ _ => True
  | [], _ => False
  | c :: p, .struct fs _ _ => ∀ pre o t post, fs.toList = pre ++ (c, o, t) :: post →
      Quiet p t ∧ ∀ x ∈ post, x.2.2.fixed
  | _ :: _, _ => False

/-- After a failure the slot is `x`. -/
def ThrowCb (x : Nat) : Res → Prop
  | .throw s => s.cb = x
  | _ => True

theorem InvRes.throwCb {st : St} {r : Res} (h : InvRes (fun a b => b.cb = a.cb) st r) :
    ThrowCb st.cb r := by
  cases r with
  | ok s => trivial
  | throw s => exact h
  | ub => trivial

theorem ThrowCb.bind {x : Nat} {r : Res} {f : St → Res} (h1 : ThrowCb x r)
    (h2 : ∀ s, r = .ok s → ThrowCb x (f s)) : ThrowCb x (r.bind f) := by
  cases r with
  | ok s => exact h2 s rfl
  | throw s => exact h1
  | ub => trivial

theorem ThrowCb.of_nothrow {x : Nat} {r : Res} (h : NoThrow r) : ThrowCb x r := by
  cases r with
  | ok s => trivial
  | throw s => exact absurd h id
  | ub => trivial

theorem ThrowCb.keep {x : Nat} {st : St} {r : Res} (h : ThrowCb x r) : ThrowCb x (keepBuf st r) :=
  ThrowCb.bind h fun _ _ => trivial

theorem fields_fixed : ∀ (fs : Fields), (∀ x ∈ fs.toList, x.2.2.fixed) → fs.fixed
  | .nil, _ => by simp [Fields.fixed]
  | .cons c o t r, h => by
    simp only [Fields.toList, List.mem_cons, forall_eq_or_imp] at h
    exact ⟨h.1, fields_fixed r h.2⟩

/-- `dflt` of a type without outlined variants never throws. -/
theorem dflt_nothrow' (E : Env) (t : Ty) (hs : Handlers) (da : Nat) (st : St) (hw : WF t)
    (ho : t.noOut) : NoThrow (dflt E t hs da st) := by
  have := dflt_frame E t hs da st hw ho
  cases h : dflt E t hs da st with
  | ok s => trivial
  | ub => trivial
  | throw s => rw [h] at this; exact this

theorem xAt_throwCb (E : Env) (l : VarL) (sty : Ty) (hm : List (Comp × Nat)) (sa da : Nat) (st : St) :
    ∀ (ts : Terms) (i : Nat), ThrowCb st.cb (xAt E ts l i sty hm sa da st)
  | .nil, i => by simp only [xAt]; trivial
  | .cons n g as t r, 0 => by
    simp only [xAt]
    refine ThrowCb.bind ?_ fun s _ => ThrowCb.of_nothrow (NoThrow.setCb ..)
    split
    · trivial
    · trivial
    · exact (InvRes.bind cb_stepInv (InvRes.beginTerm cb_stepInv l da g _ st fun _ => trivial) fun s =>
        xcode_cb_none E t sty [] _ _ s).throwCb
  | .cons n g as t r, i + 1 => by
    simp only [xAt]; exact xAt_throwCb E l sty hm sa da st r i

theorem xcode_quiet (E : Env) : ∀ (P : Path) (t src : Ty) (hs : Handlers) (path : Path) (sa da : Nat)
    (st : St), WF t → t.noOut → HandlersAt P hs → Quiet P t →
    ThrowCb st.cb (xcode E t src path hs sa da st)
  | [], t, src, hs, path, sa, da, st, hw, ho, hp, hq => by
    cases t with
    | variant ts l =>
      cases src with
      | unit =>
        simp only [xcode]
        exact ThrowCb.keep (ThrowCb.of_nothrow (dflt_nothrow' E _ hs da st hw ho))
      | variant sts sl =>
        simp only [xcode]
        split
        · unfold xEnum
          split
          · trivial
          · split <;> trivial
        · split
          · trivial
          · split
            · trivial
            · exact xAt_throwCb ..
            · split
              · exact ThrowCb.bind (xNamed_inv cb_stepInv E ts l _ _ _ da st (fun _ _ _ => trivial)
                  (allocsT_true ts)).throwCb fun s _ => ThrowCb.of_nothrow (NoThrow.setCb ..)
              · exact xAt_throwCb ..
      | _ => simp only [xcode]; trivial
    | _ => exact absurd hq (by simp [Quiet])
  | c :: p, t, src, hs, path, sa, da, st, hw, ho, hp, hq => by
    cases t with
    | struct fs sz al =>
      cases src with
      | unit =>
        simp only [xcode]
        exact ThrowCb.keep (ThrowCb.of_nothrow (dflt_nothrow' E _ hs da st hw ho))
      | struct sfs ssz sal =>
        simp only [WF] at hw
        simp only [Ty.noOut] at ho
        simp only [Quiet] at hq
        simp only [xcode]
        rw [xFields_out_nop E sfs path hs sa da _ fs ho]
        simp only [Res.bind]
        have key : ∀ (fs : Fields) (s : St), s.cb = st.cb → WFFields fs → fs.noOut →
            (∀ pre o t post, fs.toList = pre ++ (c, o, t) :: post →
              Quiet p t ∧ ∀ x ∈ post, x.2.2.fixed) →
            ThrowCb st.cb (xFields E fs false sfs path hs sa da s) := by
          intro fs
          induction fs using Fields.rec (motive_1 := fun _ => True) (motive_3 := fun _ => True) with
          | nil => intro s _ _ _ _; simp only [xFields]; trivial
          | cons d o t r _ ih =>
            intro s hs' hw ho hq
            simp only [WFFields] at hw
            simp only [Fields.noOut] at ho
            simp only [xFields, noOut_hasOut t ho.1, if_true]
            by_cases hd : d = c
            · subst hd
              obtain ⟨h1, h2⟩ := hq [] o t r.toList rfl
              refine ThrowCb.bind ?_ fun s' _ => ThrowCb.of_nothrow
                (xFields_nothrow E r false sfs path hs sa da s' (fields_fixed r h2))
              rw [← hs']
              split
              · exact xcode_quiet E p t _ _ _ _ _ s hw.1 ho.1 (handlersAt_into hp).1 h1
              · exact ThrowCb.keep (ThrowCb.of_nothrow (dflt_nothrow' E _ _ _ _ hw.1 ho.1))
            · rw [handlersAt_into_ne hp hd]
              have h1 : ∀ so sty, InvRes (fun a b => b.cb = a.cb) s
                  (xcode E t sty (path.into d) [] (sa + so) (da + o) s) :=
                fun so sty => xcode_cb_none E t _ _ _ _ s
              have h2 : InvRes (fun a b => b.cb = a.cb) s (keepBuf s (dflt E t [] (da + o) s)) :=
                InvRes.keepBuf cb_stepInv (dflt_cb_none E t _ s)
              refine ThrowCb.bind ?_ fun s' hs'' => ih s' ?_ hw.2 ho.2 fun pre o' t' post he =>
                hq ((d, o, t) :: pre) o' t' post (by simp only [Fields.toList, he]; rfl)
              · rw [← hs']
                split
                · exact (h1 _ _).throwCb
                · exact h2.throwCb
              · rw [← hs']
                split at hs''
                · rename_i so sty _
                  have := h1 so sty
                  rw [hs''] at this; exact this
                · rw [hs''] at h2; exact h2
          | _ => trivial
        exact key fs _ rfl hw.1 ho hq
      | _ => simp only [xcode]; trivial
    | _ => exact absurd hq (by simp [Quiet])

end PJ
