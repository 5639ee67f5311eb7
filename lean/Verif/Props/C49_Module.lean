import Verif.Lemmas.FnPass
/-!
# C49: the functions of a module do what the inlined code does
-/
namespace PJ

/-- An encoder of a finished module does what `encode` says, whatever else the module contains, in
whatever order the pass lowered the operations, and whatever names it chose. -/
theorem C49_encode {base : FnKey → FnName} {es : Entries} {n : Nat} {g : Gen}
    (hr : PassRun base es n g) (hd : g.todo = []) {host : Ty} {p : Proto} {path : Path} {c : FnName}
    (he : encodeEntry host p path c ∈ es) :
    ∃ depth, ∀ fuel, depth ≤ fuel → ∀ (E : Env) (obj buf : Nat) (mem : Mem),
      runEncode E g fuel c host p path obj buf mem = encode E host p path obj buf mem :=
  ⟨p.head.nest, fun fuel hf E obj buf mem => by
    simp only [runEncode, runOp_eq E hr.inv hd he (o := .transcode p.head host path []) hf, opExec,
      encode]⟩

/-- The same for decoders. -/
theorem C49_decode {base : FnKey → FnName} {es : Entries} {n : Nat} {g : Gen}
    (hr : PassRun base es n g) (hd : g.todo = []) {host : Ty} {p : Proto} {hs : Handlers} {c : FnName}
    (he : decodeEntry p host hs c ∈ es) :
    ∃ depth, ∀ fuel, depth ≤ fuel → ∀ (E : Env) (msg obj buf cap : Nat) (mem : Mem),
      runDecode E g fuel c p host hs msg obj buf cap mem =
        decode E p host hs msg obj buf cap mem :=
  ⟨host.nest, fun fuel hf E msg obj buf cap mem => by
    simp only [runDecode, runOp_eq E hr.inv hd he (o := .transcode host p.head [] hs) hf, opExec,
      decode]
    cases xcode E host p.head [] hs msg obj ⟨mem, buf, some cap, 0, 0⟩ <;> rfl⟩

/-- The same for size functions, rounded up or not. -/
theorem C49_size {base : FnKey → FnName} {es : Entries} {n : Nat} {g : Gen}
    (hr : PassRun base es n g) (hd : g.todo = []) {host : Ty} {p : Proto} {path : Path} {c : FnName}
    (he : sizeEntry host p path c ∈ es) :
    ∃ depth, ∀ fuel, depth ≤ fuel → ∀ (ru : Bool) (S : Mem) (obj : Nat),
      runSize ru S g fuel c host p path obj = sizeFn ru S host p path obj :=
  ⟨p.head.nest, fun fuel hf ru S obj => by
    have h := runLowSz_link (ru := ru) hr.inv hd (runSz_eq S ru hr.inv hd fuel)
      (hr.inv.entries _ he) (o := .transcode p.head host path []) hf
    exact congrArg (fun x : SzExec => (x obj 0).map fun c => (c + p.head.size) % W64) h⟩

theorem fn_last {base : FnKey → FnName} {es : Entries} {g : Gen} (hi : PassInv base es g)
    {f : FnName × FnKey} (hf : f ∈ g.fns) : ∃ c, f.1.getLast? = some c ∧ c.isDigit := by
  obtain ⟨s, h1, _⟩ := hi.shape f hf
  have hne : decimalName s ≠ [] := Nat.toDigits_ne_nil
  refine ⟨(decimalName s).getLast hne, ?_, ?_⟩
  · rw [h1, List.getLast?_append, List.getLast?_cons]
    simp [List.getLast?_eq_some_getLast hne]
  · exact Nat.isDigit_of_mem_toDigits (by omega) (by omega) (List.getLast_mem hne)

theorem conv_last (n : FnName) (ru : Bool) :
    ∃ c, (convName n ru).getLast? = some c ∧ c.isDigit = false := by
  cases ru
  · exact ⟨'t', by simp [convName, List.getLast?_append], by decide⟩
  · exact ⟨'d', by simp [convName, List.getLast?_append], by decide⟩

/-- At any time there is one function for a pair of types with path, handlers and buffer, all
functions have names of their own, which are different from those of the clones for size functions
and from those the user chose, and every function is called. -/
theorem C49_unique {base : FnKey → FnName} {es : Entries} {n : Nat} {g : Gen}
    (hr : PassRun base es n g) (hb : ∀ k, (base k).head? = some '#')
    (hn : (es.map (·.1)).Nodup) (he : ∀ e ∈ es, e.1.head? ≠ some '#') :
    (g.fns.map (·.2)).Nodup ∧
    (es.map (·.1) ++ g.fns.map (·.1) ++ g.clones.map (·.1)).Nodup ∧
    ∀ f ∈ g.fns, ∃ c k, ((c, k), f.1) ∈ g.links := by
  have hi := hr.inv
  have hash : ∀ f ∈ g.fns, f.1.head? = some '#' := by
    intro f hf
    obtain ⟨s, h1, _⟩ := hi.shape f hf
    rw [h1, List.head?_append, hb]
    rfl
  have hclone : ∀ x ∈ g.clones, ∃ f ∈ g.fns, x.1 = convName f.1 x.2.1 := by
    intro x hx
    simp only [Gen.clones, List.mem_flatMap, List.mem_cons, List.not_mem_nil, or_false] at hx
    obtain ⟨f, hf, hx⟩ := hx
    rcases hx with rfl | rfl <;> exact ⟨f, hf, rfl⟩
  refine ⟨hi.keys, ?_, fun f hf => ?_⟩
  · rw [List.nodup_append, List.nodup_append]
    refine ⟨⟨hn, hi.names, ?_⟩, clones_names hi.names, ?_⟩
    · intro a ha b hb' hab
      simp only [List.mem_map] at ha hb'
      obtain ⟨e, h1, rfl⟩ := ha
      obtain ⟨f, h2, rfl⟩ := hb'
      exact he e h1 (hab ▸ hash f h2)
    · intro a ha b hb' hab
      simp only [List.mem_append, List.mem_map] at ha hb'
      obtain ⟨x, h2, rfl⟩ := hb'
      obtain ⟨f, h3, h4⟩ := hclone x h2
      rcases ha with ⟨e, h1, rfl⟩ | ⟨f', h1, rfl⟩
      · apply he e h1
        rw [hab, h4, convName, List.head?_append, hash f h3]
        rfl
      · obtain ⟨c, h5, h6⟩ := fn_last hi h1
        obtain ⟨d, h7, h8⟩ := conv_last f.1 x.2.1
        rw [hab, h4, h7] at h5
        simp only [Option.some.injEq] at h5
        subst h5
        rw [h6] at h8
        simp at h8
  · obtain ⟨⟨⟨c, k⟩, m⟩, h1, h2⟩ := hi.called f hf
    exact ⟨c, k, h2 ▸ h1⟩

/-- Arrays and vectors. -/
def Ty.isSeq : Ty → Bool
  | .array .. => true
  | .vector .. => true
  | _ => false

theorem lowerOp_seq {b : BufTy} {o : Op} {k : FnKey} (h : (lowerOp b o).key = some k) (hs : k.dst.isSeq = true) :
    k.path = [] ∧ k.hs = [] := by
  cases o with
  | transcode d s p hs' =>
    have hv : ∀ ts l, d = .variant ts l → k.dst = d := by
      rintro ts l rfl
      cases s <;> simp only [lowerOp, lowerTranscode, lowerDefault] at h
      case variant ts' l' =>
        split at h <;> simp only [Low.key, Option.some.injEq, reduceCtorEq] at h
        rw [← h]
      all_goals
        simp only [Low.key, Option.some.injEq, reduceCtorEq] at h
        try rw [← h]
    cases d with
    | variant ts l => rw [hv ts l rfl] at hs; exact absurd hs (by simp [Ty.isSeq])
    | _ =>
      cases s <;> simp only [lowerOp, lowerTranscode, lowerDefault, Low.key] at h <;>
        (simp only [Option.some.injEq, reduceCtorEq] at h;
         try (subst h; first | exact ⟨rfl, rfl⟩ | exact absurd hs (by simp [Ty.isSeq])))
  | default d hs' =>
    cases d <;> simp only [lowerOp, lowerDefault, Low.key, Option.some.injEq, reduceCtorEq] at h <;>
      (try (subst h; first | exact ⟨rfl, rfl⟩ | exact absurd hs (by simp [Ty.isSeq])))

/-- There is one function for all conversions between two array or vector types, wherever in the protocol they are. -/
theorem C49_sequences {base : FnKey → FnName} {es : Entries} {n : Nat} {g : Gen} (hr : PassRun base es n g)
    {f f' : FnName × FnKey} (hf : f ∈ g.fns) (hf' : f' ∈ g.fns) (hs : f.2.dst.isSeq = true) (hd : f.2.dst = f'.2.dst)
    (hsrc : f.2.src = f'.2.src) (hb : f.2.buf = f'.2.buf) : f = f' := by
  have key : ∀ {n g}, PassRun base es n g → ∀ f ∈ g.fns, f.2.dst.isSeq = true → f.2.path = [] ∧ f.2.hs = [] := by
    intro n g hr
    induction hr with
    | start => simp [Gen.start]
    | step _ hst ih =>
      cases hst with
      | inline => exact ih
      | hit => exact ih
      | create _ hk _ _ =>
        intro f hf hs
        rcases List.mem_cons.1 hf with rfl | hf
        · exact lowerOp_seq hk hs
        · exact ih f hf hs
  obtain ⟨h1, h2⟩ := key hr f hf hs
  obtain ⟨h3, h4⟩ := key hr f' hf' (hd ▸ hs)
  obtain ⟨a, ⟨d, s, p, h, b⟩⟩ := f
  obtain ⟨a', ⟨d', s', p', h', b'⟩⟩ := f'
  simp only at h1 h2 h3 h4 hd hsrc hb
  subst h1 h2 h3 h4 hd hsrc hb
  have hk := hr.inv.keys
  generalize g.fns = l at hf hf' hk
  induction l with
  | nil => exact absurd hf (by simp)
  | cons x l ih =>
    simp only [List.map_cons, List.nodup_cons, List.mem_map, not_exists, not_and] at hk
    rcases List.mem_cons.1 hf with e | hf <;> rcases List.mem_cons.1 hf' with e' | hf'
    · rw [e, e']
    · exact absurd (by rw [← e]) (hk.1 _ hf')
    · exact absurd (by rw [← e']) (hk.1 _ hf)
    · exact ih hf hf' hk.2

/-- The pass ends, whatever it lowers first: there is a bound on the number of steps, and as long as
there are fewer than 2^31 functions (there are no more suffixes) it does not get stuck. -/
theorem C49_ends (base : FnKey → FnName) (es : Entries) :
    (∃ N, ∀ n g, PassRun base es n g → n ≤ N) ∧
    ((∀ n g, PassRun base es n g → g.fns.length < 2 ^ 31) →
      ∀ n g, PassRun base es n g → ∃ m g', PassRun base es m g' ∧ n ≤ m ∧ g'.todo = []) := by
  refine ⟨⟨todoWeight es, fun n g h => by have := h.weight; omega⟩, fun hl n g h => ?_⟩
  generalize hw : todoWeight g.todo = w
  induction w using Nat.strongRecOn generalizing n g with
  | ind w ih =>
    by_cases ht : g.todo = []
    · exact ⟨n, g, h, Nat.le_refl _, ht⟩
    · obtain ⟨g', hs⟩ := PassStep.exists base ht (by rw [h.inv.len]; exact hl n g h)
      obtain ⟨m, g2, h1, h2, h3⟩ := ih _ (by have := hs.weight; omega) (n + 1) g' (h.step hs) rfl
      exact ⟨m, g2, h1, by omega, h3⟩

namespace C49Ex

/-- A struct with two fields of the same struct type and an array of it. -/
def inner : Ty := .struct (.cons "v".toList 0 (.int 4 .signed 4) .nil) 4 4
def outer : Ty :=
  .struct (.cons "a".toList 0 inner (.cons "b".toList 4 inner (.cons "c".toList 8 (.array inner 2 4 4) .nil))) 16 4
def proto : Proto := ⟨outer, 0⟩

/-- A module with encoder, size function and decoder. -/
def entries : Entries :=
  [encodeEntry outer proto [] "enc".toList, sizeEntry outer proto [] "size".toList,
   decodeEntry proto outer [] "dec".toList]

/-- All keys print the same. -/
def base : FnKey → FnName := fun _ => "#xcd".toList

theorem weight_entries : todoWeight entries = 30 := by decide +kernel

/-- The pass finishes on it, although all keys have the same print. -/
example : ∃ n g, PassRun base entries n g ∧ g.todo = [] ∧
    (∃ depth, ∀ fuel, depth ≤ fuel → ∀ (E : Env) (obj buf : Nat) (mem : Mem),
      runEncode E g fuel "enc".toList outer proto [] obj buf mem =
        encode E outer proto [] obj buf mem) ∧
    (g.fns.map (·.2)).Nodup := by
  obtain ⟨m, g, h1, _, h3⟩ := (C49_ends base entries).2
    (fun n g h => by
      have h1 := h.weight
      have h2 := h.fns_le
      rw [weight_entries] at h1
      omega) 0 _ .start
  exact ⟨m, g, h1, h3, C49_encode h1 h3 (by simp [entries]),
    (C49_unique h1 (fun _ => by rfl) (by decide) (by decide)).1⟩

/-- A pass that made a function for the array in the encoder. -/
example : ∃ n g f, PassRun base [encodeEntry (.array inner 2 4 4) ⟨.array inner 2 4 4, 0⟩ [] "enc".toList] n g ∧
    f ∈ g.fns ∧ f.2.dst.isSeq = true :=
  ⟨1, _, _, .step .start (.create (u := []) (v := []) rfl rfl rfl ⟨by simp [Gen.start], .inl rfl⟩), List.mem_cons_self, rfl⟩

end C49Ex

end PJ
