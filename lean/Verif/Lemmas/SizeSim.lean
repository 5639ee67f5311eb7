import Verif.Model.Codec
/-!
# The size function counts what a transcode run asks for

Simulation between the transcode functions and their size clones without rounding, for destination
types whose vectors have elements of alignment 1 (all wire types).
-/
namespace PJ

mutual
/-- The elements of every vector have alignment 1. -/
def Ty.packed : Ty → Prop
  | .struct fs _ _ => fs.packed
  | .variant ts _ => ts.packed
  | .array e _ _ _ => e.packed
  | .vector e _ => e.align = 1 ∧ e.packed
  | _ => True
def Fields.packed : Fields → Prop
  | .nil => True
  | .cons _ _ t r => t.packed ∧ r.packed
def Terms.packed : Terms → Prop
  | .nil => True
  | .cons _ _ _ t r => t.packed ∧ r.packed
end

/-- The counter has moved by what the successful run has asked for. -/
def Sim (st : St) (c : Nat) (r : Res) (o : Option Nat) : Prop :=
  match r with
  | .ok s => ∃ d, s.used = st.used + d ∧ o = some ((c + d) % W64)
  | _ => True

theorem mod_W64_lt (n : Nat) : n % W64 < W64 := Nat.mod_lt _ (by decide)

theorem Sim.bind {st : St} {c : Nat} {r : Res} {o : Option Nat} {f : St → Res} {g : Nat → Option Nat}
    (h1 : Sim st c r o) (h2 : ∀ s c', c' < W64 → Sim s c' (f s) (g c')) :
    Sim st c (r.bind f) (o.bind g) := by
  cases r with
  | throw s => trivial
  | ub => trivial
  | ok s =>
    obtain ⟨d, hd, rfl⟩ := h1
    have h := h2 s _ (mod_W64_lt (c + d))
    simp only [Res.bind, Option.bind_some]
    cases hf : f s with
    | throw s => trivial
    | ub => trivial
    | ok s' =>
      rw [hf] at h
      obtain ⟨e, he, ho⟩ := h
      refine ⟨d + e, by omega, ?_⟩
      rw [ho]
      congr 1
      rw [Nat.mod_add_mod, Nat.add_assoc]

/-- A step which leaves the buffer alone, on the left. -/
theorem Sim.bindL {st : St} {c : Nat} {r : Res} {o : Option Nat} {f : St → Res}
    (h1 : Sim st c r (some c)) (h2 : ∀ s, Sim s c (f s) o) : Sim st c (r.bind f) o := by
  cases r with
  | throw s => trivial
  | ub => trivial
  | ok s =>
    obtain ⟨d, hd, h⟩ := h1
    simp only [Option.some.injEq] at h
    have h' := h2 s
    simp only [Res.bind]
    cases hf : f s with
    | throw s => trivial
    | ub => trivial
    | ok s' =>
      rw [hf] at h'
      obtain ⟨e, he, ho⟩ := h'
      refine ⟨d + e, by omega, ?_⟩
      rw [ho, ← Nat.add_assoc, ← Nat.mod_add_mod (c + d), ← h]

/-- And on the right. -/
theorem Sim.bindR {st : St} {c : Nat} {r : Res} {o : Option Nat} {f : St → Res}
    (h1 : Sim st c r o) (h2 : ∀ s c', c' < W64 → Sim s c' (f s) (some c')) : Sim st c (r.bind f) o := by
  have := Sim.bind h1 h2
  cases o <;> exact this

theorem Sim.same {st s : St} {c : Nat} (hc : c < W64) (h : s.used = st.used) :
    Sim st c (.ok s) (some c) := ⟨0, h, by rw [Nat.add_zero, Nat.mod_eq_of_lt hc]⟩

theorem Sim.keep {st : St} {c : Nat} (hc : c < W64) (r : Res) : Sim st c (keepBuf st r) (some c) := by
  cases r with
  | ok s => exact Sim.same hc rfl
  | throw s => trivial
  | ub => trivial

theorem Sim.congr {st st' : St} {c : Nat} {r : Res} {o : Option Nat} (h : st'.used = st.used)
    (h1 : Sim st' c r o) : Sim st c r o := by
  unfold Sim at *
  rw [h] at h1
  exact h1

theorem alloc_sim (st : St) (c n : Nat) : Sim st c (alloc st n) (some (szAlloc c n)) := by
  unfold alloc szAlloc
  cases st.rem with
  | none => exact ⟨n, rfl, rfl⟩
  | some r =>
    simp only
    split
    · trivial
    · exact ⟨n, rfl, rfl⟩

theorem Sim.alloc {st : St} {c n : Nat} {o : Option Nat} {f : St → Res}
    (h : ∀ s, Sim s (szAlloc c n) (f s) o) : Sim st c ((alloc st n).bind f) o := by
  have h1 := alloc_sim st c n
  cases ha : PJ.alloc st n with
  | throw s => trivial
  | ub => trivial
  | ok s =>
    rw [ha] at h1
    obtain ⟨d, hd, he⟩ := h1
    have h' := h s
    simp only [Res.bind]
    cases hf : f s with
    | throw s => trivial
    | ub => trivial
    | ok s' =>
      rw [hf] at h'
      obtain ⟨e, he', ho⟩ := h'
      simp only [Option.some.injEq] at he
      refine ⟨d + e, by omega, ?_⟩
      rw [ho, he, Nat.mod_add_mod, Nat.add_assoc]

theorem bind_ok (s : St) (f : St → Res) : (Res.ok s).bind f = f s := rfl

theorem loop_sim {f : Nat → St → Res} {g : Nat → Nat → Option Nat}
    (h : ∀ i s c, c < W64 → Sim s c (f i s) (g i c)) :
    ∀ n i st c, c < W64 → Sim st c (loop f n i st) (szLoop g n i c)
  | 0, _, st, c, hc => Sim.same hc rfl
  | n + 1, i, st, c, hc => by
    simp only [loop, szLoop]
    exact Sim.bind (h i st c hc) fun s c' hc' => loop_sim h n (i + 1) s c' hc'

theorem loop_keep_sim {f : Nat → St → Res} (h : ∀ i s c, c < W64 → Sim s c (f i s) (some c)) :
    ∀ n i st c, c < W64 → Sim st c (loop f n i st) (some c)
  | 0, _, st, c, hc => Sim.same hc rfl
  | n + 1, i, st, c, hc => by
    simp only [loop]
    exact Sim.bindL (h i st c hc) fun s => loop_keep_sim h n (i + 1) s c hc

theorem copyLoop_sim {f : Nat → Nat → St → Res} {g : Nat → Nat → Option Nat}
    (h : ∀ sa da s c, c < W64 → Sim s c (f sa da s) (g sa c)) (ss sw si ds dw di n : Nat) (st : St)
    (c : Nat) (hc : c < W64) :
    Sim st c (copyLoop f ss sw si ds dw di n st) (szCopy g ss sw si n c) :=
  loop_sim (f := fun i => f (elemAt ss sw (si + i)) (elemAt ds dw (di + i)))
    (g := fun i => g (elemAt ss sw (si + i))) (fun _ _ _ hc => h _ _ _ _ hc) _ _ _ _ hc

theorem storeRef_sim (l : VecL) (da : Nat) (st : St) (c : Nat) (hc : c < W64) :
    Sim st c (storeRef l da st) (some c) := by
  unfold storeRef
  split <;> split <;> first | trivial | exact Sim.same hc rfl

theorem szAlloc_lt (c n : Nat) : szAlloc c n < W64 := mod_W64_lt _

theorem xVector_sim (E : Env) {f : Nat → Nat → St → Res} {g : Nat → Nat → Option Nat}
    (h : ∀ sa da s c, c < W64 → Sim s c (f sa da s) (g sa c)) (desz : Nat) (dl sl : VecL)
    (sa da : Nat) (st : St) (c : Nat) (hc : c < W64) :
    Sim st c (xVector E f desz 1 dl sl sa da st) (szVector E.S g 1 dl sl (lengthOp E.S sl sa) sa c) := by
  unfold xVector szVector
  cases lengthOp E.S sl sa with
  | none => trivial
  | some n =>
    simp only
    refine Sim.bindL ?_ fun s => ?_
    · unfold storeLength; split
      · trivial
      · exact Sim.same hc rfl
    · have halign : ∀ st : St, alignTo st 1 = .ok st := fun _ => rfl
      have halign' : szAlign c 1 = some c := rfl
      split
      · unfold xInlineVec szInlineVec
        split
        · trivial
        · split
          · exact Sim.congr (st' := s.poison E.J _ _) rfl (copyLoop_sim h _ _ _ _ _ _ _ _ _ hc)
          · rw [halign, halign']
            simp only [bind_ok, Option.bind_some]
            refine Sim.bindL (storeRef_sim _ _ _ _ hc) fun s1 => ?_
            refine Sim.alloc fun s2 => ?_
            exact Sim.bind (copyLoop_sim h _ _ _ _ _ _ _ _ _ (szAlloc_lt _ _)) fun s3 c3 hc3 =>
              copyLoop_sim h _ _ _ _ _ _ _ _ _ hc3
      · unfold xOutlineVec szOutlineVec
        split
        · trivial
        · split
          · refine Sim.bind (Sim.congr (st' := s.poison E.J (da + dl.inlOff) (desz * dl.minLen)) rfl
              (copyLoop_sim h _ _ _ _ _ _ _ _ _ hc)) fun s1 c1 hc1 => copyLoop_sim h _ _ _ _ _ _ _ _ _ hc1
          · rw [halign, halign']
            simp only [bind_ok, Option.bind_some]
            refine Sim.bindL (storeRef_sim _ _ _ _ hc) fun s1 => ?_
            by_cases hp : sl.ppl ≤ dl.ppl
            · simp only [if_pos hp]
              refine Sim.alloc fun s2 => ?_
              exact Sim.bind (copyLoop_sim h _ _ _ _ _ _ _ _ _ (szAlloc_lt _ _)) fun s3 c3 hc3 =>
                Sim.bind (copyLoop_sim h _ _ _ _ _ _ _ _ _ hc3) fun s4 c4 hc4 =>
                copyLoop_sim h _ _ _ _ _ _ _ _ _ hc4
            · simp only [if_neg hp]
              refine Sim.alloc fun s2 => ?_
              exact Sim.bind (copyLoop_sim h _ _ _ _ _ _ _ _ _ (szAlloc_lt _ _)) fun s3 c3 hc3 =>
                Sim.bind (copyLoop_sim h _ _ _ _ _ _ _ _ _ hc3) fun s4 c4 hc4 =>
                copyLoop_sim h _ _ _ _ _ _ _ _ _ hc4

theorem szProj_proj : ∀ (t : Ty) (a : Nat) (p : Path),
    projVec t a p = (szProj t a p).map (fun x => (x.2.1, x.2.2)) := by
  intro t a p
  induction p generalizing t a with
  | nil => cases t <;> rfl
  | cons c p ih =>
    cases t with
    | vector e l => cases p <;> rfl
    | struct fs sz al =>
      cases p with
      | nil => rfl
      | cons c' p =>
        simp only [projVec, szProj]
        cases fs.find c with
        | none => rfl
        | some x => obtain ⟨o, t⟩ := x; exact ih t (a + o)
    | _ => cases p <;> rfl

theorem szLength_false (S : Mem) (e : Ty) (l : VecL) (a : Nat) :
    szLength false S e l a = lengthOp S l a := by
  unfold szLength; split <;> simp

theorem szCond_false (S : Mem) (sty : Ty) (sa : Nat) : ∀ as : List Attr,
    szCond false S sty sa as = termCond S sty sa as
  | [] => rfl
  | .undef d :: r => by simp only [szCond, termCond, szCond_false S sty sa r]
  | .split inl n p :: r => by
    simp only [szCond, termCond, szProj_proj, szCond_false S sty sa r]
    cases szProj sty sa p with
    | none => rfl
    | some x =>
      obtain ⟨e, l, a⟩ := x
      simp only [Option.map_some, szLength_false]
      cases lengthOp S l a <;> rfl

theorem beginTerm_sim (l : VarL) (da g sz : Nat) (st : St) (c : Nat) (hc : c < W64) :
    Sim st c (beginTerm l da g sz st) (some (if l.outline then szAlloc c sz else c)) := by
  unfold beginTerm
  refine Sim.bindL ?_ fun s => ?_
  · unfold storeTag; split
    · trivial
    · exact Sim.same hc rfl
  · split
    · exact alloc_sim s c sz
    · exact Sim.same hc rfl

theorem setCb_sim (hm : List (Comp × Nat)) (n : Comp) (s : St) (c : Nat) (hc : c < W64) :
    Sim s c (setCb hm n s) (some c) := by
  unfold setCb; split <;> exact Sim.same hc rfl

set_option maxHeartbeats 1000000 in
mutual
theorem xcode_sim (E : Env) : ∀ (t src : Ty) (path : Path) (hs : Handlers) (sa da : Nat) (st : St)
    (c : Nat), t.packed → c < W64 →
    Sim st c (xcode E t src path hs sa da st) (szX false E.S t src path sa c)
  | .unit, src, path, hs, sa, da, st, c, _, hc => by
    simp only [xcode, szX]; exact Sim.same hc rfl
  | .int _ _ _, src, path, hs, sa, da, st, c, _, hc => by
    cases src <;> simp only [xcode, szX] <;> try trivial
    · split
      · trivial
      · exact Sim.same hc rfl
    · exact Sim.keep hc _
  | .float _ _, src, path, hs, sa, da, st, c, _, hc => by
    cases src <;> simp only [xcode, szX] <;> try trivial
    · split
      · exact Sim.same hc rfl
      · trivial
    · exact Sim.keep hc _
  | .struct dfs dsz dal, src, path, hs, sa, da, st, c, hp, hc => by
    simp only [Ty.packed] at hp
    cases src with
    | unit => simp only [xcode, szX]; exact Sim.keep hc _
    | struct sfs sz al =>
      simp only [xcode, szX]
      exact Sim.bind (Sim.congr (st' := st.poison E.J da dsz) rfl
        (xFields_sim E dfs true sfs path hs sa da _ c hp hc)) fun s c' hc' =>
        xFields_sim E dfs false sfs path hs sa da s c' hp hc'
    | _ => simp only [xcode]; trivial
  | .variant dts dl, src, path, hs, sa, da, st, c, hp, hc => by
    simp only [Ty.packed] at hp
    cases src with
    | unit => simp only [xcode, szX]; exact Sim.keep hc _
    | variant sts sl =>
      simp only [xcode, szX]
      split
      · unfold xEnum
        split
        · trivial
        · split
          · trivial
          · exact Sim.same hc rfl
      · cases handlerMap hs with
        | none => trivial
        | some hm =>
          simp only
          cases selectTerm E.S sts sl path sa with
          | none => trivial
          | some o =>
            cases o with
            | none => exact xAt_sim E dts dl dl.dflt .unit hm _ da st c hp hc
            | some t =>
              simp only
              split
              · exact Sim.bindR (xNamed_sim E dts dl t.name t.ty _ da st c hp hc) fun s c' hc' =>
                  setCb_sim hm _ s c' hc'
              · exact xAt_sim E dts dl dl.dflt t.ty hm _ da st c hp hc
    | _ => simp only [xcode]; trivial
  | .array de dn desz dal, src, path, hs, sa, da, st, c, hp, hc => by
    simp only [Ty.packed] at hp
    cases src with
    | unit => simp only [xcode, szX]; exact Sim.keep hc _
    | array se sn sesz sal =>
      simp only [xcode, szX]
      exact Sim.bindR (loop_sim (f := fun i => xcode E de se [] [] (elemAt sa sesz i) (elemAt da desz i))
        (g := fun i => szX false E.S de se [] (elemAt sa sesz i))
        (fun i s c hc => xcode_sim E de se [] [] _ _ s c hp hc) _ _ _ _ hc)
        fun s c' hc' => loop_keep_sim (fun i s c hc => Sim.keep hc _) _ _ _ _ hc'
    | _ => simp only [xcode]; trivial
  | .vector de dl, src, path, hs, sa, da, st, c, hp, hc => by
    simp only [Ty.packed] at hp
    cases src with
    | unit => simp only [xcode, szX]; exact Sim.keep hc _
    | vector se sl =>
      simp only [xcode, szX, szLength_false, hp.1]
      exact xVector_sim E (fun sa da s c hc => xcode_sim E de se [] [] sa da s c hp.2 hc) _ dl sl sa da st c hc
    | _ => simp only [xcode]; trivial
termination_by structural t => t
theorem xFields_sim (E : Env) : ∀ (fs : Fields) (out : Bool) (sfs : Fields) (path : Path) (hs : Handlers)
    (sa da : Nat) (st : St) (c : Nat), fs.packed → c < W64 →
    Sim st c (xFields E fs out sfs path hs sa da st) (szFields false E.S fs out sfs path sa c)
  | .nil, out, sfs, path, hs, sa, da, st, c, _, hc => by
    simp only [xFields, szFields]; exact Sim.same hc rfl
  | .cons n o t r, out, sfs, path, hs, sa, da, st, c, hp, hc => by
    simp only [Fields.packed] at hp
    simp only [xFields, szFields]
    refine Sim.bind ?_ fun s c' hc' => xFields_sim E r out sfs path hs sa da s c' hp.2 hc'
    split
    · cases sfs.findLast n with
      | none => exact Sim.keep hc _
      | some x => exact xcode_sim E t x.2 _ _ _ _ st c hp.1 hc
    · exact Sim.same hc rfl
termination_by structural fs => fs
theorem xNamed_sim (E : Env) : ∀ (ts : Terms) (l : VarL) (n : Comp) (sty : Ty) (sa da : Nat) (st : St)
    (c : Nat), ts.packed → c < W64 →
    Sim st c (xNamed E ts l n sty sa da st) (szNamed false E.S ts l n sty sa c)
  | .nil, l, n, sty, sa, da, st, c, _, hc => by
    simp only [xNamed, szNamed]; exact Sim.same hc rfl
  | .cons m g as t r, l, n, sty, sa, da, st, c, hp, hc => by
    simp only [Terms.packed] at hp
    simp only [xNamed, szNamed, szCond_false]
    split
    · cases termCond E.S sty sa as with
      | none => trivial
      | some b =>
        cases b with
        | true =>
          exact Sim.bind (o := some _) (beginTerm_sim l da g t.size st c hc) fun s c' hc' =>
            xcode_sim E t sty [] [] sa _ s c' hp.1 hc'
        | false => exact xNamed_sim E r l n sty sa da st c hp.2 hc
    · exact xNamed_sim E r l n sty sa da st c hp.2 hc
termination_by structural ts => ts
theorem xAt_sim (E : Env) : ∀ (ts : Terms) (l : VarL) (i : Nat) (sty : Ty) (hm : List (Comp × Nat))
    (sa da : Nat) (st : St) (c : Nat), ts.packed → c < W64 →
    Sim st c (xAt E ts l i sty hm sa da st) (szAt false E.S ts l i sty sa c)
  | .nil, l, i, sty, hm, sa, da, st, c, _, hc => by simp only [xAt]; trivial
  | .cons m g as t r, l, 0, sty, hm, sa, da, st, c, hp, hc => by
    simp only [Terms.packed] at hp
    simp only [xAt, szAt, szCond_false]
    refine Sim.bindR ?_ fun s c' hc' => setCb_sim hm _ s c' hc'
    cases termCond E.S sty sa as with
    | none => trivial
    | some b =>
      cases b with
      | true =>
        exact Sim.bind (o := some _) (beginTerm_sim l da g t.size st c hc) fun s c' hc' =>
          xcode_sim E t sty [] [] sa _ s c' hp.1 hc'
      | false => exact Sim.same hc rfl
  | .cons m g as t r, l, i + 1, sty, hm, sa, da, st, c, hp, hc => by
    simp only [Terms.packed] at hp
    simp only [xAt, szAt]
    exact xAt_sim E r l i sty hm sa da st c hp.2 hc
termination_by structural ts => ts
end

end PJ
