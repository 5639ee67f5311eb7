import Verif.Spec.Cost
import Verif.Lemmas.SizeSim
/-! # The size functions compute `cost` modulo 2^64 -/
namespace PJ

/-- The counter `o` is `c` plus the cost `k`. -/
def Counts (c : Nat) (o k : Option Nat) : Prop := o = k.map fun d => (c + d) % W64

theorem Counts.same {c : Nat} (hc : c < W64) : Counts c (some c) (some 0) := by
  simp [Counts, Nat.mod_eq_of_lt hc]

theorem Counts.none (c : Nat) : Counts c none none := rfl

theorem Counts.bind {c : Nat} {o k k' : Option Nat} {g : Nat → Option Nat} (h1 : Counts c o k)
    (h2 : ∀ c', c' < W64 → Counts c' (g c') k') : Counts c (o.bind g) (plus k k') := by
  unfold Counts at *
  subst h1
  cases k with
  | none => rfl
  | some d =>
    simp only [Option.map_some, Option.bind_some, plus]
    rw [h2 _ (mod_W64_lt _)]
    cases k' with
    | none => rfl
    | some e => simp only [Option.map_some]; rw [Nat.mod_add_mod, Nat.add_assoc]

theorem Counts.alloc {c n : Nat} {o k : Option Nat} (h : Counts (szAlloc c n) o k) :
    Counts c o (plus (some n) k) := by
  unfold Counts at *
  subst h
  cases k with
  | none => rfl
  | some e =>
    simp only [plus, Option.bind_some, Option.map_some]
    unfold szAlloc
    rw [Nat.mod_add_mod, Nat.add_assoc]

theorem szLoop_counts {f : Nat → Nat → Option Nat} {g : Nat → Option Nat}
    (h : ∀ i c, c < W64 → Counts c (f i c) (g i)) :
    ∀ n i c, c < W64 → Counts c (szLoop f n i c) (sumTo g n i)
  | 0, _, c, hc => Counts.same hc
  | n + 1, i, c, hc => by
    simp only [szLoop, sumTo]
    exact Counts.bind (h i c hc) fun c' hc' => szLoop_counts h n (i + 1) c' hc'

theorem szCopy_counts {f : Nat → Nat → Option Nat} {g : Nat → Option Nat}
    (h : ∀ a c, c < W64 → Counts c (f a c) (g a)) (ss sw si n c : Nat) (hc : c < W64) :
    Counts c (szCopy f ss sw si n c) (costCopy g ss sw si n) :=
  szLoop_counts (f := fun i => f (elemAt ss sw (si + i))) (g := fun i => g (elemAt ss sw (si + i)))
    (fun _ _ hc => h _ _ hc) _ _ _ hc

theorem szVector_counts {S : Mem} {f : Nat → Nat → Option Nat} {g : Nat → Option Nat}
    (h : ∀ a c, c < W64 → Counts c (f a c) (g a)) (dl sl : VecL) (len : Option Nat) (sa c : Nat)
    (hc : c < W64) : Counts c (szVector S f 1 dl sl len sa c) (costVec S g dl sl len sa) := by
  unfold szVector costVec
  cases len with
  | none => rfl
  | some n =>
    simp only
    have halign : szAlign c 1 = some c := rfl
    split
    · unfold szInlineVec
      split
      · exact szCopy_counts h _ _ _ _ _ hc
      · rw [halign]
        simp only [Option.bind_some]
        exact Counts.alloc (Counts.bind (szCopy_counts h _ _ _ _ _ (szAlloc_lt _ _)) fun c' hc' =>
          szCopy_counts h _ _ _ _ _ hc')
    · unfold szOutlineVec
      split
      · exact Counts.bind (szCopy_counts h _ _ _ _ _ hc) fun c' hc' => szCopy_counts h _ _ _ _ _ hc'
      · rw [halign]
        simp only [Option.bind_some]
        apply Counts.alloc
        split
        · exact Counts.bind (szCopy_counts h _ _ _ _ _ (szAlloc_lt _ _)) fun c' hc' =>
            Counts.bind (szCopy_counts h _ _ _ _ _ hc') fun c' hc' => szCopy_counts h _ _ _ _ _ hc'
        · exact Counts.bind (szCopy_counts h _ _ _ _ _ (szAlloc_lt _ _)) fun c' hc' =>
            Counts.bind (szCopy_counts h _ _ _ _ _ hc') fun c' hc' => szCopy_counts h _ _ _ _ _ hc'

theorem term_counts {c sz : Nat} {out : Bool} {f : Nat → Option Nat} {k : Option Nat} (hc : c < W64)
    (h : ∀ c', c' < W64 → Counts c' (f c') k) :
    Counts c (f (if out then szAlloc c sz else c)) (plus (some (if out then sz else 0)) k) := by
  cases out with
  | true => exact Counts.alloc (h _ (szAlloc_lt _ _))
  | false =>
    have := h c hc
    cases k with
    | none => exact this
    | some d => simpa [plus] using this

mutual
theorem szX_counts (ru : Bool) (S : Mem) : ∀ (t src : Ty) (path : Path) (sa c : Nat), t.packed →
    c < W64 → Counts c (szX ru S t src path sa c) (cost ru S t src path sa)
  | .unit, src, path, sa, c, _, hc => by simp only [szX, cost]; exact Counts.same hc
  | .int _ _ _, src, path, sa, c, _, hc => by
    cases src <;> simp only [szX, cost] <;> first | exact Counts.same hc | rfl
  | .float _ _, src, path, sa, c, _, hc => by
    cases src <;> simp only [szX, cost] <;> first | exact Counts.same hc | rfl
  | .struct dfs _ _, src, path, sa, c, hp, hc => by
    simp only [Ty.packed] at hp
    cases src with
    | unit => simp only [szX, cost]; exact Counts.same hc
    | struct sfs _ _ =>
      simp only [szX, cost]
      exact Counts.bind (szFields_counts ru S dfs true sfs path sa c hp hc) fun c' hc' =>
        szFields_counts ru S dfs false sfs path sa c' hp hc'
    | _ => simp only [szX, cost]; rfl
  | .variant dts dl, src, path, sa, c, hp, hc => by
    simp only [Ty.packed] at hp
    cases src with
    | unit => simp only [szX, cost]; exact Counts.same hc
    | variant sts sl =>
      simp only [szX, cost]
      split
      · exact Counts.same hc
      · cases selectTerm S sts sl path sa with
        | none => rfl
        | some o =>
          cases o with
          | none => exact szAt_counts ru S dts dl dl.dflt .unit _ c hp hc
          | some t =>
            simp only
            split
            · exact szNamed_counts ru S dts dl t.name t.ty _ c hp hc
            · exact szAt_counts ru S dts dl dl.dflt t.ty _ c hp hc
    | _ => simp only [szX, cost]; rfl
  | .array de dn _ _, src, path, sa, c, hp, hc => by
    simp only [Ty.packed] at hp
    cases src with
    | unit => simp only [szX, cost]; exact Counts.same hc
    | array se sn sesz _ =>
      simp only [szX, cost]
      exact szLoop_counts (f := fun i => szX ru S de se [] (elemAt sa sesz i))
        (g := fun i => cost ru S de se [] (elemAt sa sesz i))
        (fun i c hc => szX_counts ru S de se [] _ c hp hc) _ _ _ hc
    | _ => simp only [szX, cost]; rfl
  | .vector de dl, src, path, sa, c, hp, hc => by
    simp only [Ty.packed] at hp
    cases src with
    | unit => simp only [szX, cost]; exact Counts.same hc
    | vector se sl =>
      simp only [szX, cost, hp.1]
      exact szVector_counts (fun a c hc => szX_counts ru S de se [] a c hp.2 hc) dl sl _ sa c hc
    | _ => simp only [szX, cost]; rfl
termination_by structural t => t
theorem szFields_counts (ru : Bool) (S : Mem) : ∀ (fs : Fields) (out : Bool) (sfs : Fields) (path : Path)
    (sa c : Nat), fs.packed → c < W64 →
    Counts c (szFields ru S fs out sfs path sa c) (costFields ru S fs out sfs path sa)
  | .nil, out, sfs, path, sa, c, _, hc => by simp only [szFields, costFields]; exact Counts.same hc
  | .cons n o t r, out, sfs, path, sa, c, hp, hc => by
    simp only [Fields.packed] at hp
    simp only [szFields, costFields]
    refine Counts.bind ?_ fun c' hc' => szFields_counts ru S r out sfs path sa c' hp.2 hc'
    split
    · cases sfs.findLast n with
      | none => exact Counts.same hc
      | some x => exact szX_counts ru S t x.2 _ _ c hp.1 hc
    · exact Counts.same hc
termination_by structural fs => fs
theorem szNamed_counts (ru : Bool) (S : Mem) : ∀ (ts : Terms) (l : VarL) (n : Comp) (sty : Ty)
    (sa c : Nat), ts.packed → c < W64 →
    Counts c (szNamed ru S ts l n sty sa c) (costNamed ru S ts l n sty sa)
  | .nil, l, n, sty, sa, c, _, hc => by simp only [szNamed, costNamed]; exact Counts.same hc
  | .cons m g as t r, l, n, sty, sa, c, hp, hc => by
    simp only [Terms.packed] at hp
    simp only [szNamed, costNamed]
    split
    · cases szCond ru S sty sa as with
      | none => rfl
      | some b =>
        cases b with
        | true =>
          exact term_counts (f := szX ru S t sty [] sa) hc fun c' hc' =>
            szX_counts ru S t sty [] sa c' hp.1 hc'
        | false => exact szNamed_counts ru S r l n sty sa c hp.2 hc
    · exact szNamed_counts ru S r l n sty sa c hp.2 hc
termination_by structural ts => ts
theorem szAt_counts (ru : Bool) (S : Mem) : ∀ (ts : Terms) (l : VarL) (i : Nat) (sty : Ty)
    (sa c : Nat), ts.packed → c < W64 →
    Counts c (szAt ru S ts l i sty sa c) (costAt ru S ts l i sty sa)
  | .nil, l, i, sty, sa, c, _, hc => by simp only [szAt, costAt]; rfl
  | .cons m g as t r, l, 0, sty, sa, c, hp, hc => by
    simp only [Terms.packed] at hp
    simp only [szAt, costAt]
    cases szCond ru S sty sa as with
    | none => rfl
    | some b =>
      cases b with
      | true =>
        exact term_counts (f := szX ru S t sty [] sa) hc fun c' hc' =>
          szX_counts ru S t sty [] sa c' hp.1 hc'
      | false => exact Counts.same hc
  | .cons m g as t r, l, i + 1, sty, sa, c, hp, hc => by
    simp only [Terms.packed] at hp
    simp only [szAt, costAt]
    exact szAt_counts ru S r l i sty sa c hp.2 hc
termination_by structural ts => ts
end

end PJ
