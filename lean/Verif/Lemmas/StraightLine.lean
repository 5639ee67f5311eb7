import Verif.Model.StraightLine
import Verif.Props.C35_Flush
import Verif.Lemmas.Run
/-!
# Straight-line code runs like the generated functions
-/
namespace PJ

/-! ## Bytes -/

theorem convInt_same (w : Nat) (s : Sign) (n : Nat) (h : n < 256 ^ w) : convInt w s w n = n := by
  simp only [convInt, Nat.lt_irrefl, if_false, trunc]
  exact Nat.mod_eq_of_lt h

theorem writeN_in (m m' : Mem) (a k n x : Nat) (h : a ≤ x ∧ x < a + k) : writeN m a k n x = writeN m' a k n x := by
  simp only [writeN, writeBytes]
  have : (leBytes k n)[x - a]? ≠ none := by
    intro hn
    rw [List.getElem?_eq_none_iff] at hn
    simp at hn
    omega
  cases hg : (leBytes k n)[x - a]? with
  | none => exact absurd hg this
  | some b => simp [h.1]

theorem writeN_readN (m S : Mem) (a b k x : Nat) (h : a ≤ x ∧ x < a + k) :
    writeN m a k (readN S b k) x = S (b + (x - a)) := by
  have hl : leBytes k (readN S b k) = readBytes S b k := by
    have := leBytes_ofLE (readBytes S b k)
    rwa [readBytes_length] at this
  simp only [writeN, writeBytes, hl, readBytes_getElem? S b k (x - a) (by omega), if_pos h.1]

theorem loadU_some (m : UMem) (S : Mem) (a n : Nat) (h : ∀ x, a ≤ x → x < a + n → m x = some (S x)) :
    loadU m a n = some (readBytes S a n) := by
  induction n generalizing a with
  | zero => rfl
  | succ n ih =>
    simp only [loadU, readBytes, h a (by omega) (by omega), Option.bind_some,
      ih (a + 1) (fun x h1 h2 => h x (by omega) (by omega)), Option.map_some]

theorem loadU_congr (m m' : UMem) (a n : Nat) (h : ∀ x, a ≤ x → x < a + n → m x = m' x) :
    loadU m a n = loadU m' a n := by
  induction n generalizing a with
  | zero => rfl
  | succ n ih =>
    simp only [loadU, h a (by omega) (by omega), ih (a + 1) (fun x h1 h2 => h x (by omega) (by omega))]

theorem loadU_mono (m m' : UMem) (h : Refines m' m) (a n : Nat) :
    loadU m a n = none ∨ loadU m' a n = loadU m a n := by
  induction n generalizing a with
  | zero => exact .inr rfl
  | succ n ih =>
    simp only [loadU]
    rcases h a with h | h
    · left; simp [h]
    · rcases ih (a + 1) with g | g
      · left; simp [g]
      · right; rw [h, g]

/-! ## What the instructions are -/

/-- What is assumed of the alias analysis: source and destination are known, and the answers about them are sound for
instructions that read the one and write the other. -/
structure Aliasing.Sound (A : Aliasing) (sa N da M : Nat) : Prop where
  mods : ∀ ra rl wa wl r n x, sa ≤ ra → ra + rl ≤ sa + N → da ≤ wa → wa + wl ≤ da + M →
    (r = 0 ∧ n ≤ N ∨ r = 1 ∧ n ≤ M) → wa ≤ x → x < wa + wl → rootsAt sa da r ≤ x → x < rootsAt sa da r + n →
    A.mods ra rl wa wl r n = true
  refs : ∀ ra rl wa wl r n x, sa ≤ ra → ra + rl ≤ sa + N → da ≤ wa → wa + wl ≤ da + M →
    (r = 0 ∧ n ≤ N ∨ r = 1 ∧ n ≤ M) → ra ≤ x → x < ra + rl → rootsAt sa da r ≤ x → x < rootsAt sa da r + n →
    A.refs ra rl wa wl r n = true

/-- The locations the coalescing pass asks about. -/
def askIn (N M : Nat) : Nat → Nat → Prop := fun r n => r = 0 ∧ n ≤ N ∨ r = 1 ∧ n ≤ M

theorem convOp_ok {A : Aliasing} {sa N da M : Nat} (hA : A.Sound sa N da M) (f : Nat → Nat) (ra rl wa wl : Nat)
    (h1 : sa ≤ ra) (h2 : ra + rl ≤ sa + N) (h3 : da ≤ wa) (h4 : wa + wl ≤ da + M) :
    (convOp A f ra rl wa wl).OKIn (rootsAt sa da) (askIn N M) where
  frame := fun m a h => by
    simp only [convOp] at h ⊢
    rw [if_neg h]
  dep := fun m m' a h g => by
    simp only [convOp] at h ⊢
    rw [loadU_congr m m' ra rl (fun x h1 h2 => h x ⟨h1, h2⟩), g]
  mono := fun m m' h a => by
    simp only [convOp]
    split
    · rcases loadU_mono m m' h ra rl with g | g
      · left; simp [g]
      · right; rw [g]
    · exact h a
  mods := fun r n a ha hw g1 g2 => hA.mods ra rl wa wl r n a h1 h2 h3 h4 ha hw.1 hw.2 g1 g2
  refs := fun r n a ha hw g1 g2 => hA.refs ra rl wa wl r n a h1 h2 h3 h4 ha hw.1 hw.2 g1 g2

/-! ## Running -/

/-- The memory of the block and that of the functions: the source has its bytes, and elsewhere the bytes are the same,
or undefined and poisoned. -/
structure Tracks (E : Env) (sa N : Nat) (st : St) (m : UMem) : Prop where
  src : ∀ x, sa ≤ x → x < sa + N → m x = some (E.S x)
  dst : ∀ x, ¬ (sa ≤ x ∧ x < sa + N) → m x = some (st.mem x) ∨ m x = none ∧ st.mem x = E.J x

theorem sim_poison {E : Env} {sa N da M : Nat} (hd : Disj sa N da M) {st : St} {m : UMem} (h : Tracks E sa N st m)
    (d n : Nat) (hn : d + n ≤ M) :
    Tracks E sa N (st.poison E.J (da + d) n) ((⟨none, 1, 0, d, n⟩ : CCopy).exec (rootsAt sa da) m) := by
  unfold Disj at hd
  constructor
  · intro x h1 h2
    simp only [CCopy.exec, rootsAt, Nat.one_ne_zero, if_false]
    rw [if_neg (by omega)]
    exact h.src x h1 h2
  · intro x hx
    simp only [CCopy.exec, rootsAt, Nat.one_ne_zero, if_false, St.poison, poisonMem]
    split
    · exact .inr ⟨rfl, rfl⟩
    · exact h.dst x hx

theorem sim_copy {E : Env} {sa N da M : Nat} (hd : Disj sa N da M) {st : St} {m : UMem} (h : Tracks E sa N st m)
    (s d w : Nat) (hs : s + w ≤ N) (hn : d + w ≤ M) :
    Tracks E sa N (st.store (da + d) w (readN E.S (sa + s) w))
      ((Inst.loadStore ⟨some 0, 1, s, d, w⟩ []).exec (rootsAt sa da) m) := by
  unfold Disj at hd
  constructor
  · intro x h1 h2
    simp only [Inst.exec, rootsAt, Nat.one_ne_zero, if_false, List.foldl_nil]
    rw [if_neg (by omega)]
    exact h.src x h1 h2
  · intro x hx
    simp only [Inst.exec, rootsAt, Nat.one_ne_zero, if_false, if_true, List.foldl_nil, St.store]
    split
    · rename_i hw
      left
      rw [writeN_readN _ _ _ _ _ _ hw]
      exact h.src _ (by omega) (by omega)
    · rw [writeN_out _ _ _ _ _ (by omega)]
      exact h.dst x hx

theorem sim_conv {E : Env} {sa N da M : Nat} (hd : Disj sa N da M) {st : St} {m : UMem} (h : Tracks E sa N st m)
    (A : Aliasing) (f : Nat → Nat) (s rl d w : Nat) (hs : s + rl ≤ N) (hn : d + w ≤ M) :
    Tracks E sa N (st.store (da + d) w (f (readN E.S (sa + s) rl)))
      ((Inst.other (convOp A f (sa + s) rl (da + d) w)).exec (rootsAt sa da) m) := by
  unfold Disj at hd
  constructor
  · intro x h1 h2
    simp only [Inst.exec, convOp]
    rw [if_neg (by omega)]
    exact h.src x h1 h2
  · intro x hx
    simp only [Inst.exec, convOp, St.store]
    split
    · rename_i hw
      left
      rw [loadU_some m E.S (sa + s) rl (fun x h1 h2 => h.src x (by omega) (by omega)), Option.map_some]
      congr 1
      exact writeN_in _ _ _ _ _ _ hw
    · rw [writeN_out _ _ _ _ _ (by omega)]
      exact h.dst x hx

theorem Tracks.keep {E : Env} {sa N : Nat} {st st' : St} {m : UMem} (h : Tracks E sa N st m) (hm : st'.mem = st.mem) :
    Tracks E sa N st' m := ⟨h.src, fun x hx => by rw [hm]; exact h.dst x hx⟩

/-! ## Nothing is outlined -/

mutual
theorem lowerDflt_noOut {A : Aliasing} {sa da : Nat} : ∀ {t : Ty} {d : Nat} {is : List Inst},
    lowerDflt A sa da t d = some is → t.hasOut = false ∧ t.noOut
  | .unit, _, _, _ => ⟨rfl, trivial⟩
  | .int _ _ _, _, _, _ => ⟨rfl, trivial⟩
  | .float _ _, _, _, _ => ⟨rfl, trivial⟩
  | .struct fs _ _, d, _, h => by
    simp only [lowerDflt, Option.map_eq_some_iff] at h
    obtain ⟨x, hx, -⟩ := h
    simp only [Ty.hasOut, Ty.noOut]
    exact lowerDfltFields_noOut hx
  | .variant _ _, _, _, h => by simp [lowerDflt] at h
  | .array _ _ _ _, _, _, h => by simp [lowerDflt] at h
  | .vector _ _, _, _, h => by simp [lowerDflt] at h
theorem lowerDfltFields_noOut {A : Aliasing} {sa da : Nat} : ∀ {fs : Fields} {d : Nat} {is : List Inst},
    lowerDfltFields A sa da fs d = some is → fs.hasOut = false ∧ fs.noOut
  | .nil, _, _, _ => ⟨rfl, trivial⟩
  | .cons _ o t r, d, _, h => by
    simp only [lowerDfltFields, Option.bind_eq_some_iff, Option.map_eq_some_iff] at h
    obtain ⟨x, hx, y, hy, -⟩ := h
    have h1 := lowerDflt_noOut hx
    have h2 := lowerDfltFields_noOut hy
    simp only [Fields.hasOut, Fields.noOut, h1.1, h2.1]
    exact ⟨rfl, h1.2, h2.2⟩
end

mutual
theorem lower_noOut {F : Nat → Nat → Nat → Nat} {A : Aliasing} {sa da : Nat} : ∀ {t src : Ty} {s d : Nat}
    {is : List Inst}, lower F A sa da t src s d = some is → t.hasOut = false ∧ t.noOut ∧ Compat t src
  | .unit, _, _, _, _, _ => ⟨rfl, trivial, by simp [Compat]⟩
  | .int _ _ _, _, _, _, _, _ => ⟨rfl, trivial, by simp [Compat]⟩
  | .float _ _, _, _, _, _, _ => ⟨rfl, trivial, by simp [Compat]⟩
  | .struct fs sz al, src, s, d, is, h => by
    cases src with
    | unit =>
      simp only [lower] at h
      have := lowerDflt_noOut h
      exact ⟨this.1, this.2, by simpa only [Compat, Ty.hasOut] using this.1⟩
    | struct sfs ssz sal =>
      simp only [lower, Option.map_eq_some_iff] at h
      obtain ⟨x, hx, -⟩ := h
      simp only [Ty.hasOut, Ty.noOut, Compat]
      exact lowerFields_noOut hx
    | _ => simp [lower] at h
  | .variant _ _, _, _, _, _, h => by simp [lower] at h
  | .array _ _ _ _, _, _, _, _, h => by simp [lower] at h
  | .vector _ _, _, _, _, _, h => by simp [lower] at h
theorem lowerFields_noOut {F : Nat → Nat → Nat → Nat} {A : Aliasing} {sa da : Nat} : ∀ {fs sfs : Fields} {s d : Nat}
    {is : List Inst}, lowerFields F A sa da fs sfs s d = some is →
    fs.hasOut = false ∧ fs.noOut ∧ CompatFields fs sfs
  | .nil, _, _, _, _, _ => ⟨rfl, trivial, by simp [CompatFields]⟩
  | .cons c o t r, sfs, s, d, _, h => by
    simp only [lowerFields, Option.bind_eq_some_iff, Option.map_eq_some_iff] at h
    obtain ⟨x, hx, y, hy, -⟩ := h
    have h2 := lowerFields_noOut hy
    simp only [Fields.hasOut, Fields.noOut, CompatFields]
    cases hf : sfs.findLast c with
    | none =>
      rw [hf] at hx
      have h1 := lowerDflt_noOut hx
      exact ⟨by simp [h1.1, h2.1], ⟨h1.2, h2.2.1⟩, h1.1, h2.2.2⟩
    | some p =>
      obtain ⟨so, sty⟩ := p
      rw [hf] at hx
      have h1 := lower_noOut hx
      exact ⟨by simp [h1.1, h2.1], ⟨h1.2.1, h2.2.1⟩, h1.2.2, h2.2.2⟩
end

mutual
theorem dfltFields_out (E : Env) : ∀ (fs : Fields) (hs : Handlers) (da : Nat) (st : St), fs.hasOut = false →
    dfltFields E fs true hs da st = .ok st
  | .nil, _, _, _, _ => rfl
  | .cons c o t r, hs, da, st, h => by
    simp only [Fields.hasOut, Bool.or_eq_false_iff] at h
    simp only [dfltFields, h.1, Bool.false_eq_true, if_false, Res.bind]
    exact dfltFields_out E r hs da st h.2
theorem xFields_out (E : Env) : ∀ (fs sfs : Fields) (p : Path) (hs : Handlers) (sa da : Nat) (st : St),
    fs.hasOut = false → xFields E fs true sfs p hs sa da st = .ok st
  | .nil, _, _, _, _, _, _, _ => by simp [xFields]
  | .cons c o t r, sfs, p, hs, sa, da, st, h => by
    simp only [Fields.hasOut, Bool.or_eq_false_iff] at h
    simp only [xFields, h.1, Bool.false_eq_true, if_false, Res.bind]
    exact xFields_out E r sfs p hs sa da st h.2
end

theorem mem_findLast {c : Comp} {o : Nat} {t : Ty} : ∀ {fs : Fields}, fs.findLast c = some (o, t) →
    (c, o, t) ∈ fs.toList
  | .nil, h => by simp [Fields.findLast] at h
  | .cons n o' t' r, h => by
    simp only [Fields.findLast] at h
    simp only [Fields.toList, List.mem_cons]
    split at h
    · rename_i x hx
      cases h
      exact .inr (mem_findLast hx)
    · split at h
      · rename_i hn
        cases h
        exact .inl (by rw [hn])
      · cases h

/-! ## The code and the functions -/

theorem runBlock_cons (base : Nat → Nat) (i : Inst) (is : List Inst) (m : UMem) :
    runBlock base (i :: is) m = runBlock base is (i.exec base m) := rfl

mutual
theorem lowerDflt_sim (E : Env) {A : Aliasing} {sa N da M : Nat} (hd : Disj sa N da M) : ∀ (t : Ty) (hs : Handlers)
    (d : Nat) (st : St) (m : UMem) (is : List Inst), lowerDflt A sa da t d = some is → WF t → d + t.size ≤ M →
    Tracks E sa N st m → ∃ st', dflt E t hs (da + d) st = .ok st' ∧ Tracks E sa N st' (runBlock (rootsAt sa da) is m)
  | .unit, hs, d, st, m, is, h, _, _, hm => by
    simp only [lowerDflt, Option.some.injEq] at h
    subst h
    exact ⟨st, rfl, hm⟩
  | .int w sg al, hs, d, st, m, is, h, _, hi, hm => by
    simp only [lowerDflt] at h
    split at h
    · simp at h
    · rename_i hw
      simp only [Option.some.injEq] at h
      subst h
      simp only [Ty.size] at hi
      refine ⟨st.store (da + d) w 0, by simp only [dflt, if_neg hw], ?_⟩
      exact sim_conv hd hm A (fun _ => 0) 0 0 d w (by omega) hi
  | .float w al, hs, d, st, m, is, h, _, hi, hm => by
    simp only [lowerDflt] at h
    split at h
    · rename_i hw
      simp only [Option.some.injEq] at h
      subst h
      simp only [Ty.size] at hi
      refine ⟨st.store (da + d) w (qNaN w), by simp only [dflt, if_pos hw], ?_⟩
      exact sim_conv hd hm A (fun _ => qNaN w) 0 0 d w (by omega) hi
    · simp at h
  | .struct fs sz al, hs, d, st, m, is, h, hw, hi, hm => by
    simp only [lowerDflt, Option.map_eq_some_iff] at h
    obtain ⟨x, hx, rfl⟩ := h
    simp only [WF] at hw
    simp only [Ty.size] at hi
    obtain ⟨st', h1, h2⟩ := lowerDfltFields_sim E hd fs hs d _ _ x hx hw.1
      (fun y hy => by have := hw.2.inside y hy; omega) (sim_poison hd hm d sz hi)
    refine ⟨st', ?_, h2⟩
    simp only [dflt, dfltFields_out E fs hs _ _ (lowerDfltFields_noOut hx).1, Res.bind]
    exact h1
  | .variant _ _, _, _, _, _, _, h, _, _, _ => by simp [lowerDflt] at h
  | .array _ _ _ _, _, _, _, _, _, h, _, _, _ => by simp [lowerDflt] at h
  | .vector _ _, _, _, _, _, _, h, _, _, _ => by simp [lowerDflt] at h
theorem lowerDfltFields_sim (E : Env) {A : Aliasing} {sa N da M : Nat} (hd : Disj sa N da M) : ∀ (fs : Fields)
    (hs : Handlers) (d : Nat) (st : St) (m : UMem) (is : List Inst), lowerDfltFields A sa da fs d = some is →
    WFFields fs → (∀ x ∈ fs.toList, d + x.2.1 + x.2.2.size ≤ M) → Tracks E sa N st m →
    ∃ st', dfltFields E fs false hs (da + d) st = .ok st' ∧ Tracks E sa N st' (runBlock (rootsAt sa da) is m)
  | .nil, hs, d, st, m, is, h, _, _, hm => by
    simp only [lowerDfltFields, Option.some.injEq] at h
    subst h
    exact ⟨st, rfl, hm⟩
  | .cons c o t r, hs, d, st, m, is, h, hw, hi, hm => by
    simp only [lowerDfltFields, Option.bind_eq_some_iff, Option.map_eq_some_iff] at h
    obtain ⟨x, hx, y, hy, rfl⟩ := h
    simp only [WFFields] at hw
    simp only [Fields.toList, List.forall_mem_cons] at hi
    obtain ⟨s1, h1, h2⟩ := lowerDflt_sim E hd t (hs.into c) (d + o) st m x hx hw.1 hi.1 hm
    obtain ⟨s2, h3, h4⟩ := lowerDfltFields_sim E hd r hs d _ _ y hy hw.2 hi.2
      (h2.keep (st' := { s1 with ptr := st.ptr, rem := st.rem, used := st.used }) rfl)
    refine ⟨s2, ?_, by rw [runBlock_append]; exact h4⟩
    rw [← Nat.add_assoc] at h1
    simp only [dfltFields, (lowerDflt_noOut hx).1, if_true, h1, keepBuf, Res.bind]
    exact h3
end

mutual
theorem lower_sim (E : Env) {A : Aliasing} {sa N da M : Nat} (hd : Disj sa N da M) : ∀ (t src : Ty) (p : Path)
    (hs : Handlers) (s d : Nat) (st : St) (m : UMem) (is : List Inst), lower E.fconv A sa da t src s d = some is →
    WF t → WF src → s + src.size ≤ N → d + t.size ≤ M → Tracks E sa N st m →
    ∃ st', xcode E t src p hs (sa + s) (da + d) st = .ok st' ∧ Tracks E sa N st' (runBlock (rootsAt sa da) is m)
  | .unit, src, p, hs, s, d, st, m, is, h, _, _, _, _, hm => by
    simp only [lower, Option.some.injEq] at h
    subst h
    exact ⟨st, by simp [xcode], hm⟩
  | .int dw ds dal, src, p, hs, s, d, st, m, is, h, hw, _, hi, hj, hm => by
    cases src with
    | unit =>
      simp only [lower] at h
      obtain ⟨s1, h1, h2⟩ := lowerDflt_sim E hd _ hs d st m is h hw hj hm
      exact ⟨_, by simp only [xcode, h1, keepBuf, Res.bind],
        h2.keep (st' := { s1 with ptr := st.ptr, rem := st.rem, used := st.used }) rfl⟩
    | int sw ss sal =>
      simp only [lower] at h
      simp only [Ty.size] at hi hj
      split at h
      · simp at h
      · rename_i hz
        split at h
        · rename_i he
          subst he
          simp only [Option.some.injEq] at h
          subst h
          refine ⟨st.store (da + d) sw (convInt sw ss sw (readN E.S (sa + s) sw)), by simp only [xcode, if_neg hz], ?_⟩
          rw [convInt_same _ _ _ (readN_lt _ _ _)]
          exact sim_copy hd hm s d sw hi hj
        · simp only [Option.some.injEq] at h
          subst h
          exact ⟨_, by simp only [xcode, if_neg hz], sim_conv hd hm A (convInt sw ss dw) s sw d dw hi hj⟩
    | _ => simp [lower] at h
  | .float dw dal, src, p, hs, s, d, st, m, is, h, hw, _, hi, hj, hm => by
    cases src with
    | unit =>
      simp only [lower] at h
      obtain ⟨s1, h1, h2⟩ := lowerDflt_sim E hd _ hs d st m is h hw hj hm
      exact ⟨_, by simp only [xcode, h1, keepBuf, Res.bind],
        h2.keep (st' := { s1 with ptr := st.ptr, rem := st.rem, used := st.used }) rfl⟩
    | float sw sal =>
      simp only [lower] at h
      simp only [Ty.size] at hi hj
      split at h
      · rename_i hz
        split at h
        · rename_i he
          subst he
          simp only [Option.some.injEq] at h
          subst h
          exact ⟨_, by simp only [xcode, if_pos hz, if_true], sim_copy hd hm s d sw hi hj⟩
        · rename_i he
          simp only [Option.some.injEq] at h
          subst h
          refine ⟨st.store (da + d) dw (E.fconv sw dw (readN E.S (sa + s) sw)), by simp only [xcode, if_pos hz, if_neg he],
            ?_⟩
          exact sim_conv hd hm A (E.fconv sw dw) s sw d dw hi hj
      · simp at h
    | _ => simp [lower] at h
  | .struct dfs dsz dal, src, p, hs, s, d, st, m, is, h, hw, hw', hi, hj, hm => by
    cases src with
    | unit =>
      simp only [lower] at h
      obtain ⟨s1, h1, h2⟩ := lowerDflt_sim E hd _ hs d st m is h hw hj hm
      exact ⟨_, by simp only [xcode, h1, keepBuf, Res.bind],
        h2.keep (st' := { s1 with ptr := st.ptr, rem := st.rem, used := st.used }) rfl⟩
    | struct sfs ssz sal =>
      simp only [lower, Option.map_eq_some_iff] at h
      obtain ⟨x, hx, rfl⟩ := h
      simp only [WF] at hw hw'
      simp only [Ty.size] at hi hj
      obtain ⟨s1, h1, h2⟩ := lowerFields_sim E hd dfs sfs p hs s d _ _ x hx hw.1 hw'.1
        (fun c so sty hf => by
          have := hw'.2.inside (c, so, sty) (mem_findLast hf)
          simp only at this
          omega)
        (fun y hy => by have := hw.2.inside y hy; omega) (sim_poison hd hm d dsz hj)
      refine ⟨s1, ?_, h2⟩
      simp only [xcode, xFields_out E dfs sfs p hs _ _ _ (lowerFields_noOut hx).1, Res.bind]
      exact h1
    | _ => simp [lower] at h
  | .variant _ _, _, _, _, _, _, _, _, _, h, _, _, _, _, _ => by simp [lower] at h
  | .array _ _ _ _, _, _, _, _, _, _, _, _, h, _, _, _, _, _ => by simp [lower] at h
  | .vector _ _, _, _, _, _, _, _, _, _, h, _, _, _, _, _ => by simp [lower] at h
theorem lowerFields_sim (E : Env) {A : Aliasing} {sa N da M : Nat} (hd : Disj sa N da M) : ∀ (fs sfs : Fields)
    (p : Path) (hs : Handlers) (s d : Nat) (st : St) (m : UMem) (is : List Inst),
    lowerFields E.fconv A sa da fs sfs s d = some is → WFFields fs → WFFields sfs →
    (∀ c so sty, sfs.findLast c = some (so, sty) → s + so + sty.size ≤ N) →
    (∀ x ∈ fs.toList, d + x.2.1 + x.2.2.size ≤ M) → Tracks E sa N st m →
    ∃ st', xFields E fs false sfs p hs (sa + s) (da + d) st = .ok st' ∧
      Tracks E sa N st' (runBlock (rootsAt sa da) is m)
  | .nil, sfs, p, hs, s, d, st, m, is, h, _, _, _, _, hm => by
    simp only [lowerFields, Option.some.injEq] at h
    subst h
    exact ⟨st, by simp [xFields], hm⟩
  | .cons c o t r, sfs, p, hs, s, d, st, m, is, h, hw, hw', hi, hj, hm => by
    simp only [lowerFields, Option.bind_eq_some_iff, Option.map_eq_some_iff] at h
    obtain ⟨x, hx, y, hy, rfl⟩ := h
    simp only [WFFields] at hw
    simp only [Fields.toList, List.forall_mem_cons] at hj
    have key : ∃ s1, (match sfs.findLast c with
        | some (so, sty) => xcode E t sty (p.into c) (hs.into c) (sa + s + so) (da + d + o) st
        | none => keepBuf st (dflt E t (hs.into c) (da + d + o) st)) = .ok s1 ∧
        Tracks E sa N s1 (runBlock (rootsAt sa da) x m) ∧ t.hasOut = false := by
      cases hf : sfs.findLast c with
      | none =>
        rw [hf] at hx
        obtain ⟨s1, h1, h2⟩ := lowerDflt_sim E hd t (hs.into c) (d + o) st m x hx hw.1 hj.1 hm
        rw [← Nat.add_assoc] at h1
        exact ⟨_, by simp only [h1, keepBuf, Res.bind],
          h2.keep (st' := { s1 with ptr := st.ptr, rem := st.rem, used := st.used }) rfl, (lowerDflt_noOut hx).1⟩
      | some q =>
        obtain ⟨so, sty⟩ := q
        rw [hf] at hx
        obtain ⟨s1, h1, h2⟩ := lower_sim E hd t sty (p.into c) (hs.into c) (s + so) (d + o) st m x hx hw.1
          (findLast_WF sfs c so sty hw' hf) (hi c so sty hf) hj.1 hm
        rw [← Nat.add_assoc, ← Nat.add_assoc] at h1
        exact ⟨s1, h1, h2, (lower_noOut hx).1⟩
    obtain ⟨s1, h1, h2, h3⟩ := key
    obtain ⟨s2, h4, h5⟩ := lowerFields_sim E hd r sfs p hs s d s1 _ y hy hw.2 hw' hi hj.2 h2
    refine ⟨s2, ?_, by rw [runBlock_append]; exact h5⟩
    rw [xFields, h3, if_pos rfl]
    refine Eq.trans ?_ h4
    exact congrArg (fun z => Res.bind z (xFields E r false sfs p hs (sa + s) (da + d))) h1
end

end PJ
