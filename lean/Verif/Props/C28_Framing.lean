import Verif.Model.Framing
/-!
# C28: protocol framing round trip
-/
namespace PJ

private theorem foldl_size (bs : List (Nat × List UInt8)) (n : Nat) :
    bs.foldl (fun n b => n + 8 + 8 + b.2.length) n = n + ((bs.map frameBlock).flatten).length := by
  induction bs generalizing n with
  | nil => simp
  | cons b bs ih =>
    simp only [List.foldl_cons, ih, List.map_cons, List.flatten_cons, List.length_append, frameBlock,
      leBytes_length]
    omega

/-- `encodeProto` writes exactly `getProtoSize` bytes, and the first word is that size. -/
theorem C28_size (bs : List (Nat × List UInt8)) :
    (encodeProto bs).length = protoSize bs ∧
    ofLE ((encodeProto bs).take 8) = protoSize bs % 2 ^ 64 := by
  unfold protoSize
  rw [foldl_size]
  refine ⟨by simp [encodeProto], ?_⟩
  simp only [encodeProto]
  rw [List.take_left' (by simp), ofLE_leBytes]

/-- Specification: `v`/`p` is the newest version known to both sides. -/
def Newest (known : Nat → Bool) (bs : List (Nat × List UInt8)) (v : Nat) (p : List UInt8) : Prop :=
  (v, p) ∈ bs ∧ known v = true ∧ ∀ b ∈ bs, known b.1 = true → b.1 ≤ v

private theorem read64_at (pre : List UInt8) (n : Nat) (post : List UInt8) (pos : Nat)
    (hn : n < 2 ^ 64) (hp : pos = pre.length) :
    read64 (pre ++ (leBytes 8 n ++ post)) pos = some n := by
  subst hp
  unfold read64
  rw [if_pos (by simp)]
  rw [List.drop_left, List.take_left' (by simp), ofLE_leBytes]
  congr 1
  exact Nat.mod_eq_of_lt hn

/-- Loop invariant: what the search returns when standing before the blocks `bs`. -/
private theorem loop_spec (known : Nat → Bool) (bs : List (Nat × List UInt8)) :
    ∀ (pre post : List UInt8) (lv : Nat) (pos size bufEnd : Nat),
    (∀ b ∈ bs, b.1 < 2 ^ 64 ∧ lv < b.1) →
    bs.Pairwise (fun a b => a.1 < b.1) →
    (∀ b ∈ bs, ∀ c ∈ bs, b.1 < c.1 → known c.1 = true → known b.1 = true) →
    bufEnd = pre.length + ((bs.map frameBlock).flatten).length → bufEnd < 2 ^ 64 →
    match (bs.filter (fun b => known b.1)).getLast? with
    | none => frameLoop known (pre ++ ((bs.map frameBlock).flatten ++ post)) bufEnd pre.length (lv, pos, size)
        = frameFinish (pre ++ ((bs.map frameBlock).flatten ++ post)) (lv, pos, size)
    | some b => ∃ at', frameLoop known (pre ++ ((bs.map frameBlock).flatten ++ post)) bufEnd pre.length (lv, pos, size)
        = FrameRes.found b.1 at' b.2 := by
  induction bs with
  | nil =>
    intro pre post lv pos size bufEnd _ _ _ he _
    rw [frameLoop]
    simp at he
    rw [dif_neg (by omega)]
    simp
  | cons b bs ih =>
    intro pre post lv pos size bufEnd hlt hpw hdown he hE
    obtain ⟨v, p⟩ := b
    have hv := hlt (v, p) (by simp)
    simp only at hv
    have hlen : ((((v, p) :: bs).map frameBlock).flatten).length
        = 16 + p.length + ((bs.map frameBlock).flatten).length := by
      simp [frameBlock]; omega
    have hbuf : pre ++ ((((v, p) :: bs).map frameBlock).flatten ++ post)
        = pre ++ (leBytes 8 v ++ (leBytes 8 p.length ++ (p ++ ((bs.map frameBlock).flatten ++ post)))) := by
      simp [frameBlock, List.append_assoc]
    have hr1 := read64_at pre v (leBytes 8 p.length ++ (p ++ ((bs.map frameBlock).flatten ++ post)))
      pre.length hv.1 rfl
    have hr2 := read64_at (pre ++ leBytes 8 v) p.length (p ++ ((bs.map frameBlock).flatten ++ post))
      (pre.length + 8) (by omega) (by simp)
    rw [List.append_assoc] at hr2
    rw [frameLoop, dif_pos (by omega)]
    rw [hbuf, hr1, hr2]
    simp only
    by_cases hk : known v = true
    · rw [if_pos (by simp [hk]; exact hv.2), if_pos (show _ < W64 by unfold W64; omega)]
      have ih' := ih (pre ++ leBytes 8 v ++ leBytes 8 p.length ++ p) post v (pre.length + 16) p.length
        bufEnd
        (fun c hc => ⟨(hlt c (by simp [hc])).1, (List.pairwise_cons.1 hpw).1 c hc⟩)
        (List.pairwise_cons.1 hpw).2
        (fun c hc d hd => hdown c (by simp [hc]) d (by simp [hd]))
        (by rw [he, hlen]; simp; omega) hE
      have hl2 : (pre ++ leBytes 8 v ++ leBytes 8 p.length ++ p).length = pre.length + 16 + p.length := by
        simp; omega
      rw [hl2] at ih'
      simp only [List.append_assoc] at ih'
      rw [List.filter_cons, if_pos (by simpa using hk)]
      cases hf : bs.filter (fun b => known b.1) with
      | nil =>
        rw [hf] at ih'
        simp only [List.getLast?_nil] at ih'
        simp only [List.getLast?_singleton]
        refine ⟨pre.length + 16, ih'.trans ?_⟩
        unfold frameFinish
        rw [if_neg (by simp; omega), if_pos (by simp; omega)]
        have : ∀ rest : List UInt8, ((pre ++ (leBytes 8 v ++ (leBytes 8 p.length ++ (p ++ rest)))).drop
            (pre.length + 16)).take p.length = p := by
          intro rest
          rw [← List.append_assoc, ← List.append_assoc, List.drop_left' (by simp),
            List.take_left]
        simp only [this]
      | cons c cs =>
        rw [hf] at ih'
        simp only [List.getLast?_cons_cons]
        cases hg : (c :: cs).getLast? with
        | none => simp at hg
        | some x => rw [hg] at ih'; exact ih'
    · rw [if_neg (by simp [hk])]
      have : ((v, p) :: bs).filter (fun b => known b.1) = [] := by
        rw [List.filter_eq_nil_iff]
        intro c hc hkc
        rcases List.mem_cons.1 hc with rfl | hc'
        · exact hk hkc
        · exact hk (hdown (v, p) (by simp) c hc ((List.pairwise_cons.1 hpw).1 c hc') hkc)
      rw [this]
      rfl

/-- Decoding what was encoded finds the newest version both sides know, with its payload intact,
and reports incompatibility exactly when there is none — provided the versions the reader knows
come before the ones it does not know.  `post` is whatever follows in memory.
Missing for the full claim: readers that dropped an older version (`C28_violated`). -/
theorem C28_roundtrip_partial (known : Nat → Bool) (bs : List (Nat × List UInt8)) (post : List UInt8)
    (hv : ∀ b ∈ bs, 0 < b.1 ∧ b.1 < 2 ^ 64)
    (hinc : bs.Pairwise (fun a b => a.1 < b.1))
    (hsize : protoSize bs < 2 ^ 64)
    (hdown : ∀ b ∈ bs, ∀ c ∈ bs, b.1 < c.1 → known c.1 = true → known b.1 = true) :
    (∀ v p, (∃ pos, decodeProto known (encodeProto bs ++ post) = .found v pos p) ↔ Newest known bs v p) ∧
    (decodeProto known (encodeProto bs ++ post) = .incompatible ↔ ∀ b ∈ bs, known b.1 = false) := by
  have hs : protoSize bs = 8 + ((bs.map frameBlock).flatten).length := by
    unfold protoSize; rw [foldl_size]
  have hdec : match (bs.filter (fun b => known b.1)).getLast? with
        | none => decodeProto known (encodeProto bs ++ post) = FrameRes.incompatible
        | some b => ∃ pos, decodeProto known (encodeProto bs ++ post) = FrameRes.found b.1 pos b.2 := by
    unfold decodeProto
    have hr := read64_at [] (8 + ((bs.map frameBlock).flatten).length)
      ((bs.map frameBlock).flatten ++ post) 0 (by omega) rfl
    have he : encodeProto bs ++ post = [] ++ (leBytes 8 (8 + ((bs.map frameBlock).flatten).length) ++
      ((bs.map frameBlock).flatten ++ post)) := by simp [encodeProto, List.append_assoc]
    rw [he, hr]
    simp only [List.nil_append]
    have := loop_spec known bs (leBytes 8 (8 + ((bs.map frameBlock).flatten).length)) post 0 0 0
      (8 + ((bs.map frameBlock).flatten).length) (fun b hb => ⟨(hv b hb).2, (hv b hb).1⟩) hinc hdown
      (by simp) (by omega)
    rw [leBytes_length] at this
    exact this
  have hpw : (bs.filter (fun b => known b.1)).Pairwise (fun a b => a.1 < b.1) :=
    hinc.sublist List.filter_sublist
  cases hf : (bs.filter (fun b => known b.1)).getLast? with
  | none =>
    rw [hf] at hdec
    simp only at hdec
    rw [hdec]
    have hnil := List.getLast?_eq_none_iff.1 hf
    rw [List.filter_eq_nil_iff] at hnil
    refine ⟨?_, ?_⟩
    · intro v p
      constructor
      · intro h; simp at h
      · rintro ⟨h1, h2, _⟩
        exact absurd h2 (hnil _ h1)
    · constructor
      · intro _ b hb; simpa using hnil b hb
      · intro _; rfl
  | some b =>
    rw [hf] at hdec
    obtain ⟨pos, hdec⟩ := hdec
    rw [hdec]
    obtain ⟨l, hl⟩ := List.getLast?_eq_some_iff.1 hf
    have hb : b ∈ bs.filter (fun b => known b.1) := by rw [hl]; simp
    have hb' := List.mem_filter.1 hb
    have hmax : ∀ c ∈ bs, known c.1 = true → c = b ∨ c.1 < b.1 := by
      intro c hc hk
      have : c ∈ bs.filter (fun b => known b.1) := List.mem_filter.2 ⟨hc, by simpa using hk⟩
      rw [hl] at this hpw
      rcases List.mem_append.1 this with h | h
      · right; exact (List.pairwise_append.1 hpw).2.2 c h b (by simp)
      · left; simpa using h
    refine ⟨?_, ?_⟩
    · intro v p
      constructor
      · intro h
        simp at h
        obtain ⟨rfl, rfl⟩ := h
        refine ⟨hb'.1, by simpa using hb'.2, ?_⟩
        intro c hc hk
        rcases hmax c hc hk with h | h
        · rw [h]; exact Nat.le_refl _
        · omega
      · rintro ⟨h1, h2, h3⟩
        have h4 := h3 b hb'.1 (by simpa using hb'.2)
        rcases hmax _ h1 h2 with h | h
        · exact ⟨pos, by rw [← h]⟩
        · simp at h; omega
    · constructor
      · intro h; simp at h
      · intro h; have := h b hb'.1; have hk := hb'.2; simp [this] at hk

/-- The payload is where the result says it is. -/
theorem C28_position (known : Nat → Bool) (buf : List UInt8) (v pos : Nat) (p : List UInt8)
    (h : decodeProto known buf = .found v pos p) :
    pos + p.length ≤ buf.length ∧ (buf.drop pos).take p.length = p := by
  have hfin : ∀ l, frameFinish buf l = .found v pos p →
      pos + p.length ≤ buf.length ∧ (buf.drop pos).take p.length = p := by
    intro l hl
    unfold frameFinish at hl
    split at hl
    · simp at hl
    · split at hl
      · next hle =>
        simp only [FrameRes.found.injEq] at hl
        obtain ⟨-, rfl, rfl⟩ := hl
        have : ((buf.drop l.2.1).take l.2.2).length = l.2.2 := by simp; omega
        rw [this]
        exact ⟨hle, rfl⟩
      · simp at hl
  have hloop : ∀ bufEnd k at' l, bufEnd - at' ≤ k → frameLoop known buf bufEnd at' l = .found v pos p →
      pos + p.length ≤ buf.length ∧ (buf.drop pos).take p.length = p := by
    intro bufEnd k
    induction k with
    | zero =>
      intro at' l hk hl
      rw [frameLoop, dif_neg (by omega)] at hl
      exact hfin l hl
    | succ k ih =>
      intro at' l hk hl
      rw [frameLoop] at hl
      split at hl
      · split at hl
        · split at hl
          · split at hl
            · exact ih _ _ (by omega) hl
            · simp at hl
          · exact hfin l hl
        · simp at hl
      · exact hfin l hl
  unfold decodeProto at h
  split at h
  · exact hloop _ _ _ _ (Nat.le_refl _) h
  · simp at h

/-- Corollary: both sides built from the same version list (the situation of a single release)
always agree on the newest version. -/
theorem C28_same_release (bs : List (Nat × List UInt8)) (post : List UInt8) (v : Nat)
    (p : List UInt8)
    (hv : ∀ b ∈ bs ++ [(v, p)], 0 < b.1 ∧ b.1 < 2 ^ 64)
    (hinc : (bs ++ [(v, p)]).Pairwise (fun a b => a.1 < b.1))
    (hsize : protoSize (bs ++ [(v, p)]) < 2 ^ 64) :
    ∃ pos, decodeProto (fun n => (bs ++ [(v, p)]).any (fun b => b.1 == n)) (encodeProto (bs ++ [(v, p)]) ++ post)
      = .found v pos p := by
  apply ((C28_roundtrip_partial _ _ post hv hinc hsize ?_).1 v p).2
  · refine ⟨by simp, by simp, ?_⟩
    intro b hb _
    rcases List.mem_append.1 hb with h | h
    · exact Nat.le_of_lt ((List.pairwise_append.1 hinc).2.2 b h (v, p) (by simp))
    · simp at h; rw [h]; exact Nat.le_refl _
  · intro b hb c _ _ _
    exact List.any_eq_true.2 ⟨b, hb, by simp⟩

/-- The full claim is false: the loop gives up at the first version the reader does not know, even
if that version is older than one it does know. -/
theorem C28_violated : ∃ (known : Nat → Bool) (bs : List (Nat × List UInt8)),
    (∀ b ∈ bs, 0 < b.1 ∧ b.1 < 2 ^ 64) ∧ bs.Pairwise (fun a b => a.1 < b.1) ∧
    Newest known bs 2 [7] ∧ decodeProto known (encodeProto bs) = .incompatible := by
  refine ⟨fun n => n == 2, [(1, [5]), (2, [7])], by simp, by simp, ?_, ?_⟩
  · refine ⟨by simp, by simp, by simp⟩
  · simp [decodeProto, encodeProto, frameBlock, read64, leBytes, ofLE, frameLoop, frameFinish]

/-- Non-vacuity of `C28_roundtrip_partial`: a newer writer, an older reader. -/
example : Newest (fun n => n == 1) [(1, [5, 6]), (2, [7])] 1 [5, 6] ∧
    ∃ pos, decodeProto (fun n => n == 1) (encodeProto [(1, [5, 6]), (2, [7])] ++ [9, 9]) = .found 1 pos [5, 6] := by
  refine ⟨⟨by simp, by simp, by simp⟩, ?_⟩
  apply ((C28_roundtrip_partial _ _ _ (by simp) (by simp) (by decide) (by simp)).1 _ _).2
  exact ⟨by simp, by simp, by simp⟩

end PJ
