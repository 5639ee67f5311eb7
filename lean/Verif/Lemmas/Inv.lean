import Verif.Lemmas.FrameX
import Verif.Props.C41_Align
/-!
# Invariants of whole runs

Any relation between states that the single operations respect holds between the first and the last
state of a transcode call, for all types, all source bytes and all outcomes.
-/
namespace PJ

theorem alignDiff_mod (ptr al : Nat) : alignDiff ptr al = alignDiff (ptr % W64) al := by
  unfold alignDiff
  split
  · rfl
  · have h1 : sub64 (ptr % W64) 1 = sub64 ptr 1 := by unfold sub64 W64; omega
    simp only [h1]
    unfold sub64
    rw [Nat.mod_mod]

theorem alignDiff_lt8 (ptr al : Nat) (h : al = 2 ∨ al = 4 ∨ al = 8) : alignDiff ptr al < 8 := by
  rw [alignDiff_mod]
  have := (C41_align (ptr % W64) al (Nat.mod_lt _ (by decide)) (by omega)).1
  omega

/-- A relation respected by the operations; `A` bounds the byte counts given to `AllocateOp`. -/
structure StepInv (A : Nat → Prop) (R : St → St → Prop) : Prop where
  refl : ∀ st, R st st
  trans : ∀ {a b c}, R a b → R b c → R a c
  store : ∀ st a k n, R st (st.store a k n)
  poison : ∀ st J a n, R st (st.poison J a n)
  alloc : ∀ st s n, A n → alloc st n = .ok s → R st s
  keep : ∀ st s, R st s → R st { s with ptr := st.ptr, rem := st.rem, used := st.used }
  small : ∀ n, n < 8 → A n

/-- Setting the callback slot respects the relation. -/
def CbFree (R : St → St → Prop) : Prop := ∀ st x, R st { st with cb := x }

/-- Setting the callback slot to one of these handlers respects the relation. -/
def CbAll {α : Type} (R : St → St → Prop) (hs : List (α × Nat)) : Prop := ∀ h ∈ hs, ∀ st, R st { st with cb := h.2 + 1 }

theorem CbAll.nil {α : Type} {R : St → St → Prop} : CbAll R ([] : List (α × Nat)) := fun _ h => by cases h

theorem CbAll.of {R : St → St → Prop} {hs : Handlers} (h : hs = [] ∨ CbFree R) : CbAll R hs := by
  rcases h with rfl | h
  · exact CbAll.nil
  · exact fun _ _ st => h st _

def InvRes (R : St → St → Prop) (st : St) : Res → Prop
  | .ok s => R st s
  | .throw s => R st s
  | .ub => True

mutual
/-- The byte counts a type can ask for at once satisfy `A`. -/
def Allocs (A : Nat → Prop) : Ty → Prop
  | .struct fs _ _ => AllocsF A fs
  | .variant ts l => (l.outline = true → ∀ t ∈ ts.toList, A t.ty.size) ∧ AllocsT A ts
  | .array e _ _ _ => Allocs A e
  | .vector e l =>
    (∀ n, (∀ m, l.maxLen = some m → n ≤ m) → l.isInl n = false → A (l.elemW * sub64 n l.ppl)) ∧
    Allocs A e
  | _ => True
def AllocsF (A : Nat → Prop) : Fields → Prop
  | .nil => True
  | .cons _ _ t r => Allocs A t ∧ AllocsF A r
def AllocsT (A : Nat → Prop) : Terms → Prop
  | .nil => True
  | .cons _ _ _ t r => Allocs A t ∧ AllocsT A r
end

section
variable {A : Nat → Prop} {R : St → St → Prop} (I : StepInv A R)
include I

theorem InvRes.bind {st : St} {r : Res} {f : St → Res} (h1 : InvRes R st r)
    (h2 : ∀ s, InvRes R s (f s)) : InvRes R st (r.bind f) := by
  cases r with
  | ub => trivial
  | throw s => exact h1
  | ok s =>
    simp only [Res.bind]
    have := h2 s
    cases hf : f s with
    | ub => trivial
    | ok s' => rw [hf] at this; exact I.trans h1 this
    | throw s' => rw [hf] at this; exact I.trans h1 this

theorem InvRes.ok (st : St) : InvRes R st (.ok st) := I.refl st

theorem InvRes.alloc (st : St) (n : Nat) (h : A n) : InvRes R st (alloc st n) := by
  cases ha : PJ.alloc st n with
  | ub => trivial
  | ok s => exact I.alloc st s n h ha
  | throw s =>
    unfold PJ.alloc at ha
    split at ha
    · cases ha
    · split at ha
      · cases ha; exact I.refl st
      · cases ha

theorem InvRes.alignTo (st : St) (al : Nat) : InvRes R st (alignTo st al) := by
  unfold PJ.alignTo
  split
  · exact I.refl st
  · split
    · rename_i h1 h
      refine InvRes.alloc I st _ (I.small _ ?_)
      exact alignDiff_lt8 _ _ h
    · trivial

theorem InvRes.loop {body : Nat → St → Res} (h : ∀ i s, InvRes R s (body i s)) :
    ∀ n i st, InvRes R st (loop body n i st)
  | 0, _, st => I.refl st
  | n + 1, i, st => by
    simp only [PJ.loop]
    exact InvRes.bind I (h i st) fun s => InvRes.loop h n (i + 1) s

theorem InvRes.keepBuf {st : St} {r : Res} (h : InvRes R st r) : InvRes R st (keepBuf st r) := by
  cases r with
  | ub => trivial
  | throw s => exact h
  | ok s => exact I.keep st s h

omit I in
theorem mem_of_lookup {α : Type} [BEq α] [LawfulBEq α] {l : List (α × Nat)} {a : α} {i : Nat} (h : l.lookup a = some i) :
    (a, i) ∈ l := by
  induction l with
  | nil => cases h
  | cons x l ih =>
    obtain ⟨b, j⟩ := x
    simp only [List.lookup] at h
    split at h
    · rename_i hb
      cases h
      rw [eq_of_beq hb]
      exact List.mem_cons_self
    · exact List.mem_cons_of_mem _ (ih h)

theorem InvRes.setCb (hm : List (Comp × Nat)) (h : CbAll R hm) (n : Comp) (st : St) :
    InvRes R st (setCb hm n st) := by
  unfold PJ.setCb
  split
  · rename_i i hi
    exact h (n, i) (mem_of_lookup hi) st
  · exact I.refl st

theorem InvRes.storeTag (l : VarL) (da tag : Nat) (st : St) : InvRes R st (storeTag l da tag st) := by
  unfold PJ.storeTag
  split
  · trivial
  · exact I.store ..

theorem InvRes.storeLength (l : VecL) (da n : Nat) (st : St) :
    InvRes R st (storeLength l da n st) := by
  unfold PJ.storeLength
  split
  · trivial
  · exact I.store ..

theorem InvRes.storeRef (l : VecL) (da : Nat) (st : St) : InvRes R st (storeRef l da st) := by
  unfold PJ.storeRef
  split
  · split
    · exact I.store ..
    · trivial
  · split
    · trivial
    · exact I.store ..

theorem InvRes.beginTerm (l : VarL) (da tag sz : Nat) (st : St) (h : l.outline = true → A sz) :
    InvRes R st (beginTerm l da tag sz st) := by
  unfold PJ.beginTerm
  refine InvRes.bind I (InvRes.storeTag I ..) fun s => ?_
  split
  · rename_i ho; exact InvRes.alloc I s sz (h ho)
  · exact I.refl s

theorem InvRes.copyLoop {f : Nat → Nat → St → Res} (hf : ∀ a b s, InvRes R s (f a b s))
    (ss sw si ds dw di n : Nat) (st : St) : InvRes R st (copyLoop f ss sw si ds dw di n st) :=
  InvRes.loop I (fun _ _ => hf _ _ _) _ _ _

theorem InvRes.xVector (E : Env) {f : Nat → Nat → St → Res} (hf : ∀ a b s, InvRes R s (f a b s))
    (desz deal : Nat) (dl sl : VecL) (sa da : Nat) (st : St)
    (h : ∀ n, (∀ m, dl.maxLen = some m → n ≤ m) → dl.isInl n = false → A (dl.elemW * sub64 n dl.ppl)) :
    InvRes R st (xVector E f desz deal dl sl sa da st) := by
  unfold PJ.xVector
  split
  · trivial
  rename_i n _
  have hc : ∀ m, dl.maxLen = some m → copyLength dl n ≤ m := fun m hm => copyLength_le hm
  refine InvRes.bind I (InvRes.storeLength I ..) fun s => ?_
  split
  · unfold xInlineVec
    split
    · trivial
    split
    · exact InvRes.bind (r := .ok _) I (I.poison s E.J _ _) fun s => InvRes.copyLoop I hf ..
    · rename_i ho
      refine InvRes.bind I (InvRes.alignTo I ..) fun sta => InvRes.bind I (InvRes.storeRef I ..) fun s1 =>
        InvRes.bind I (InvRes.alloc I _ _ (h _ hc (by simpa using ho))) fun s2 =>
        InvRes.bind I (InvRes.copyLoop I hf ..) fun s3 => InvRes.copyLoop I hf ..
  · unfold xOutlineVec
    split
    · trivial
    split
    · exact InvRes.bind I (InvRes.bind (r := .ok _) I (I.poison s E.J _ _)
        fun s => InvRes.copyLoop I hf ..) fun s => InvRes.copyLoop I hf ..
    · rename_i ho
      refine InvRes.bind I (InvRes.alignTo I ..) fun sta => InvRes.bind I (InvRes.storeRef I ..) fun s1 =>
        InvRes.bind I (InvRes.alloc I _ _ (h _ hc (by simpa using ho))) fun s2 => ?_
      split
      · exact InvRes.bind I (InvRes.copyLoop I hf ..) fun s3 =>
          InvRes.bind I (InvRes.copyLoop I hf ..) fun s4 => InvRes.copyLoop I hf ..
      · exact InvRes.bind I (InvRes.copyLoop I hf ..) fun s3 =>
          InvRes.bind I (InvRes.copyLoop I hf ..) fun s4 => InvRes.copyLoop I hf ..
end

theorem into_nil' (c : Comp) : Handlers.into [] c = [] := rfl

theorem hs_into {hs : Handlers} {R : St → St → Prop} (h : CbAll R hs) (c : Comp) : CbAll R (hs.into c) := by
  intro x hx
  simp only [Handlers.into, List.mem_map, List.mem_filter] at hx
  obtain ⟨y, ⟨hy, _⟩, rfl⟩ := hx
  exact h y hy

theorem hm_of {R : St → St → Prop} : ∀ {hs : Handlers} {hm : List (Comp × Nat)}, CbAll R hs →
    handlerMap hs = some hm → CbAll R hm
  | [], hm, _, hh => by
    simp only [handlerMap, Option.some.injEq] at hh
    subst hh
    exact CbAll.nil
  | ([], _) :: _, _, _, hh => by simp [handlerMap] at hh
  | (c :: p, i) :: r, hm, h, hh => by
    simp only [handlerMap, Option.map_eq_some_iff] at hh
    obtain ⟨m, hm', rfl⟩ := hh
    intro x hx
    rcases List.mem_cons.1 hx with rfl | hx
    · exact h (c :: p, i) List.mem_cons_self
    · exact hm_of (fun y hy => h y (List.mem_cons_of_mem _ hy)) hm' x hx

mutual
theorem dflt_inv {A : Nat → Prop} {R : St → St → Prop} (I : StepInv A R) (E : Env) :
    ∀ (t : Ty) (hs : Handlers) (da : Nat) (st : St), Allocs A t → CbAll R hs →
    InvRes R st (dflt E t hs da st)
  | .int w s al, hs, da, st, _, _ => by
    simp only [dflt]; split
    · trivial
    · exact I.store ..
  | .float w al, hs, da, st, _, _ => by
    simp only [dflt]; split
    · exact I.store ..
    · trivial
  | .unit, hs, da, st, _, _ => by simp only [dflt]; exact I.refl st
  | .struct fs sz al, hs, da, st, ha, hh => by
    simp only [dflt]
    simp only [Allocs] at ha
    exact InvRes.bind I (InvRes.bind (r := .ok _) I (I.poison st E.J da sz)
      fun s => dfltFields_inv I E fs true hs da s ha hh) fun s => dfltFields_inv I E fs false hs da s ha hh
  | .variant ts l, hs, da, st, ha, hh => by
    simp only [dflt]
    simp only [Allocs] at ha
    split
    · trivial
    · rename_i hm hhm
      exact dfltAt_inv I E ts l l.dflt hm da st (fun ho t ht => ha.1 ho t ht) ha.2 (hm_of hh hhm)
  | .array e n esz al, hs, da, st, ha, hh => by
    simp only [dflt]
    simp only [Allocs] at ha
    exact InvRes.loop I (fun i s => InvRes.keepBuf I (dflt_inv I E e [] _ s ha CbAll.nil)) _ _ _
  | .vector e l, hs, da, st, _, _ => by simp only [dflt]; exact InvRes.storeLength I ..
termination_by structural t => t
theorem dfltFields_inv {A : Nat → Prop} {R : St → St → Prop} (I : StepInv A R) (E : Env) :
    ∀ (fs : Fields) (out : Bool) (hs : Handlers) (da : Nat) (st : St), AllocsF A fs →
    CbAll R hs → InvRes R st (dfltFields E fs out hs da st)
  | .nil, out, hs, da, st, _, _ => by simp only [dfltFields]; exact I.refl st
  | .cons c off t r, out, hs, da, st, ha, hh => by
    simp only [dfltFields]
    simp only [AllocsF] at ha
    refine InvRes.bind I ?_ fun s => dfltFields_inv I E r out hs da s ha.2 hh
    split
    · exact InvRes.keepBuf I (dflt_inv I E t _ _ st ha.1 (hs_into hh c))
    · exact I.refl st
termination_by structural t => t
theorem dfltAt_inv {A : Nat → Prop} {R : St → St → Prop} (I : StepInv A R) (E : Env) :
    ∀ (ts : Terms) (l : VarL) (i : Nat) (hm : List (Comp × Nat)) (da : Nat) (st : St),
    (l.outline = true → ∀ t ∈ ts.toList, A t.ty.size) → AllocsT A ts → CbAll R hm →
    InvRes R st (dfltAt E ts l i hm da st)
  | .nil, l, i, hm, da, st, _, _, _ => by simp only [dfltAt]; trivial
  | .cons n g as t r, l, 0, hm, da, st, ho, ha, hh => by
    simp only [dfltAt]
    simp only [AllocsT] at ha
    refine InvRes.bind I ?_ fun s => InvRes.setCb I hm hh n s
    split
    · trivial
    · exact I.refl st
    · exact InvRes.bind I (InvRes.beginTerm I l da g t.size st
        fun h => ho h ⟨n, g, as, t⟩ (by simp [Terms.toList])) fun s =>
        InvRes.keepBuf I (dflt_inv I E t [] _ s ha.1 CbAll.nil)
  | .cons n g as t r, l, i + 1, hm, da, st, ho, ha, hh => by
    simp only [dfltAt]
    simp only [AllocsT] at ha
    exact dfltAt_inv I E r l i hm da st (fun h x hx => ho h x (by simp [Terms.toList, hx])) ha.2 hh
termination_by structural t => t
end

mutual
theorem xcode_inv {A : Nat → Prop} {R : St → St → Prop} (I : StepInv A R) (E : Env) :
    ∀ (t src : Ty) (path : Path) (hs : Handlers) (sa da : Nat) (st : St), Allocs A t →
    CbAll R hs → InvRes R st (xcode E t src path hs sa da st)
  | .unit, src, path, hs, sa, da, st, _, _ => by simp only [xcode]; exact I.refl st
  | .int w s al, src, path, hs, sa, da, st, ha, hh => by
    cases src <;> simp only [xcode] <;> try trivial
    · split
      · trivial
      · exact I.store ..
    · exact InvRes.keepBuf I (dflt_inv I E _ _ _ _ ha hh)
  | .float w al, src, path, hs, sa, da, st, ha, hh => by
    cases src <;> simp only [xcode] <;> try trivial
    · split
      · exact I.store ..
      · trivial
    · exact InvRes.keepBuf I (dflt_inv I E _ _ _ _ ha hh)
  | .struct fs sz al, src, path, hs, sa, da, st, ha, hh => by
    cases src <;> simp only [xcode] <;> try trivial
    · exact InvRes.keepBuf I (dflt_inv I E _ _ _ _ ha hh)
    · simp only [Allocs] at ha
      exact InvRes.bind I (InvRes.bind (r := .ok _) I (I.poison st E.J da sz)
        fun s => xFields_inv I E fs true _ path hs sa da s ha hh)
        fun s => xFields_inv I E fs false _ path hs sa da s ha hh
  | .variant ts l, src, path, hs, sa, da, st, ha, hh => by
    cases src <;> simp only [xcode] <;> try trivial
    · exact InvRes.keepBuf I (dflt_inv I E _ _ _ _ ha hh)
    · simp only [Allocs] at ha
      split
      · unfold xEnum
        split
        · trivial
        · split
          · trivial
          · exact I.store ..
      · split
        · trivial
        · rename_i hm hhm
          have hhm := hm_of hh hhm
          split
          · trivial
          · exact xAt_inv I E ts l l.dflt .unit hm _ da st ha.1 ha.2 hhm
          · split
            · exact InvRes.bind I (xNamed_inv I E ts l _ _ _ da st ha.1 ha.2) fun s =>
                InvRes.setCb I hm hhm _ s
            · exact xAt_inv I E ts l l.dflt _ hm _ da st ha.1 ha.2 hhm
  | .array e n esz al, src, path, hs, sa, da, st, ha, hh => by
    cases src <;> simp only [xcode] <;> try trivial
    · exact InvRes.keepBuf I (dflt_inv I E _ _ _ _ ha hh)
    · simp only [Allocs] at ha
      exact InvRes.bind I (InvRes.loop I (fun i s => xcode_inv I E e _ [] [] _ _ s ha CbAll.nil) _ _ _)
        fun s => InvRes.loop I (fun i s => InvRes.keepBuf I (dflt_inv I E e [] _ s ha CbAll.nil)) _ _ _
  | .vector e l, src, path, hs, sa, da, st, ha, hh => by
    cases src <;> simp only [xcode] <;> try trivial
    · exact InvRes.keepBuf I (dflt_inv I E _ _ _ _ ha hh)
    · simp only [Allocs] at ha
      exact InvRes.xVector I E (fun a b s => xcode_inv I E e _ [] [] a b s ha.2 CbAll.nil) _ _ _ _ _ _ _
        ha.1
termination_by structural t => t
theorem xFields_inv {A : Nat → Prop} {R : St → St → Prop} (I : StepInv A R) (E : Env) :
    ∀ (fs : Fields) (out : Bool) (sfs : Fields) (path : Path) (hs : Handlers) (sa da : Nat) (st : St),
    AllocsF A fs → CbAll R hs → InvRes R st (xFields E fs out sfs path hs sa da st)
  | .nil, out, sfs, path, hs, sa, da, st, _, _ => by simp only [xFields]; exact I.refl st
  | .cons c off t r, out, sfs, path, hs, sa, da, st, ha, hh => by
    simp only [xFields]
    simp only [AllocsF] at ha
    refine InvRes.bind I ?_ fun s => xFields_inv I E r out sfs path hs sa da s ha.2 hh
    split
    · split
      · exact xcode_inv I E t _ _ _ _ _ st ha.1 (hs_into hh c)
      · exact InvRes.keepBuf I (dflt_inv I E t _ _ st ha.1 (hs_into hh c))
    · exact I.refl st
termination_by structural t => t
theorem xNamed_inv {A : Nat → Prop} {R : St → St → Prop} (I : StepInv A R) (E : Env) :
    ∀ (ts : Terms) (l : VarL) (c : Comp) (sty : Ty) (sa da : Nat) (st : St),
    (l.outline = true → ∀ t ∈ ts.toList, A t.ty.size) → AllocsT A ts →
    InvRes R st (xNamed E ts l c sty sa da st)
  | .nil, l, c, sty, sa, da, st, _, _ => by simp only [xNamed]; exact I.refl st
  | .cons n g as t r, l, c, sty, sa, da, st, ho, ha => by
    simp only [xNamed]
    simp only [AllocsT] at ha
    have hr := xNamed_inv I E r l c sty sa da st (fun h x hx => ho h x (by simp [Terms.toList, hx])) ha.2
    split
    · split
      · trivial
      · exact InvRes.bind I (InvRes.beginTerm I l da g t.size st
          fun h => ho h ⟨n, g, as, t⟩ (by simp [Terms.toList])) fun s =>
          xcode_inv I E t sty [] [] _ _ s ha.1 CbAll.nil
      · exact hr
    · exact hr
termination_by structural t => t
theorem xAt_inv {A : Nat → Prop} {R : St → St → Prop} (I : StepInv A R) (E : Env) :
    ∀ (ts : Terms) (l : VarL) (i : Nat) (sty : Ty) (hm : List (Comp × Nat)) (sa da : Nat) (st : St),
    (l.outline = true → ∀ t ∈ ts.toList, A t.ty.size) → AllocsT A ts → CbAll R hm →
    InvRes R st (xAt E ts l i sty hm sa da st)
  | .nil, l, i, sty, hm, sa, da, st, _, _, _ => by simp only [xAt]; trivial
  | .cons n g as t r, l, 0, sty, hm, sa, da, st, ho, ha, hh => by
    simp only [xAt]
    simp only [AllocsT] at ha
    refine InvRes.bind I ?_ fun s => InvRes.setCb I hm hh n s
    split
    · trivial
    · exact I.refl st
    · exact InvRes.bind I (InvRes.beginTerm I l da g t.size st
        fun h => ho h ⟨n, g, as, t⟩ (by simp [Terms.toList])) fun s =>
        xcode_inv I E t sty [] [] _ _ s ha.1 CbAll.nil
  | .cons n g as t r, l, i + 1, sty, hm, sa, da, st, ho, ha, hh => by
    simp only [xAt]
    simp only [AllocsT] at ha
    exact xAt_inv I E r l i sty hm sa da st (fun h x hx => ho h x (by simp [Terms.toList, hx])) ha.2 hh
termination_by structural t => t
end

mutual
theorem allocs_true : ∀ t : Ty, Allocs (fun _ => True) t
  | .int _ _ _ => by simp [Allocs]
  | .float _ _ => by simp [Allocs]
  | .unit => by simp [Allocs]
  | .struct fs _ _ => by simp only [Allocs]; exact allocsF_true fs
  | .variant ts _ => by simp only [Allocs]; exact ⟨fun _ _ _ => trivial, allocsT_true ts⟩
  | .array e _ _ _ => by simp only [Allocs]; exact allocs_true e
  | .vector e _ => by simp only [Allocs]; exact ⟨fun _ _ _ => trivial, allocs_true e⟩
theorem allocsF_true : ∀ fs : Fields, AllocsF (fun _ => True) fs
  | .nil => by simp [AllocsF]
  | .cons _ _ t r => by simp only [AllocsF]; exact ⟨allocs_true t, allocsF_true r⟩
theorem allocsT_true : ∀ ts : Terms, AllocsT (fun _ => True) ts
  | .nil => by simp [AllocsT]
  | .cons _ _ _ t r => by simp only [AllocsT]; exact ⟨allocs_true t, allocsT_true r⟩
end

end PJ
