import Verif.Model.RecordFile
import Verif.Props.C28_Framing
/-!
# C33: self describing record files
-/
namespace PJ

private theorem toSigned_small (n : Nat) (h : n < 2 ^ 63) : toSigned 8 n = n := by
  unfold toSigned; rw [if_pos (by omega)]

private theorem ofLE_len (n : Nat) (h : n < 2 ^ 63) (rest : List UInt8) :
    ofLE ((leBytes 8 n ++ rest).take 8) = n := by
  rw [List.take_left' (by simp), ofLE_leBytes]
  omega

/-- Reading one complete record. -/
private theorem readRecords_cons (m rest : List UInt8) (h : m.length < 2 ^ 63) :
    readRecords (writeRecord m ++ rest) = (m :: (readRecords rest).1, (readRecords rest).2) := by
  rw [readRecords]
  have h1 := ofLE_len m.length h (m ++ rest)
  have hne : leBytes 8 m.length ++ (m ++ rest) ≠ [] := by
    intro he; have := congrArg List.length he; simp at this
  simp only [writeRecord, List.append_assoc]
  rw [dif_neg hne, if_neg (by simp)]
  rw [h1, toSigned_small _ h, if_neg (by omega)]
  have hd : (leBytes 8 m.length ++ (m ++ rest)).drop 8 = m ++ rest := List.drop_left' (by simp)
  simp only [hd, Int.toNat_natCast, List.take_left, List.drop_left]
  rw [if_neg (by simp)]

private theorem readRecords_written (msgs : List (List UInt8)) (rest : List UInt8)
    (h : ∀ m ∈ msgs, m.length < 2 ^ 63) :
    readRecords ((msgs.map writeRecord).flatten ++ rest)
      = (msgs ++ (readRecords rest).1, (readRecords rest).2) := by
  induction msgs with
  | nil => simp
  | cons m ms ih =>
    simp only [List.map_cons, List.flatten_cons, List.append_assoc]
    rw [readRecords_cons _ _ (h m (by simp)), ih (fun x hx => h x (by simp [hx]))]
    rfl

/-- A non-empty proper prefix of a record is invalid. -/
private theorem readRecords_cut (m : List UInt8) (k : Nat) (h : m.length < 2 ^ 63) (h0 : 0 < k)
    (hk : k < (writeRecord m).length) :
    readRecords ((writeRecord m).take k) = ([], .invalid) := by
  have hlen : (writeRecord m).length = 8 + m.length := by simp [writeRecord]
  rw [readRecords]
  have hne : (writeRecord m).take k ≠ [] := by
    intro he; have := congrArg List.length he; simp [hlen] at this; omega
  rw [dif_neg hne]
  by_cases h8 : k < 8
  · rw [if_pos (by simp [hlen]; omega)]
  · rw [if_neg (by simp [hlen]; omega)]
    have e : ((writeRecord m).take k).take 8 = (writeRecord m).take 8 := by
      rw [List.take_take]; congr 1; omega
    have hv : ofLE (((writeRecord m).take k).take 8) = m.length := by
      rw [e]; exact ofLE_len _ h m
    rw [hv, toSigned_small _ h, if_neg (by omega)]
    simp only [Int.toNat_natCast]
    rw [if_pos (by simp [hlen]; omega)]

/-- The block written by `encodeProto` announces its own length. -/
def SelfSized (proto : List UInt8) : Prop :=
  8 ≤ proto.length ∧ proto.length < 2 ^ 63 ∧ proto.take 8 = leBytes 8 proto.length

/-- Every output of `encodeProto` is such a block. -/
theorem C33_encodeProto_selfSized (bs : List (Nat × List UInt8)) (h : protoSize bs < 2 ^ 63) :
    SelfSized (encodeProto bs) := by
  have hl := (C28_size bs).1
  refine ⟨by simp [encodeProto], by omega, ?_⟩
  have : (encodeProto bs).length = 8 + ((bs.map frameBlock).flatten).length := by simp [encodeProto]
  rw [this]
  simp only [encodeProto]
  rw [List.take_left' (by simp)]

private theorem readFile_proto (proto rest : List UInt8) (hp : SelfSized proto) :
    readFile (proto ++ rest) = (some proto, readRecords rest) := by
  obtain ⟨h8, hlt, hsz⟩ := hp
  have ht : (proto ++ rest).take 8 = proto.take 8 := by
    rw [List.take_append_of_le_length h8]
  have hv : ofLE ((proto ++ rest).take 8) = proto.length := by
    rw [ht, hsz, ofLE_leBytes]; omega
  have hd : (proto ++ rest).drop 8 = proto.drop 8 ++ rest := by
    rw [List.drop_append_of_le_length h8]
  have hr : ((proto ++ rest).drop 8).take (proto.length - 8) = proto.drop 8 := by
    rw [hd]; exact List.take_left' (by simp)
  have hq : ((proto ++ rest).drop 8).drop (proto.length - 8) = rest := by
    rw [hd]; exact List.drop_left' (by simp)
  have hl8 : ((proto ++ rest).take 8).length = 8 := by rw [ht]; simp; omega
  unfold readFile
  rw [if_neg (by simp [hl8])]
  simp only [hv, toSigned_small _ hlt, Int.toNat_natCast, hr, hq]
  rw [if_neg (by omega), if_neg (by simp), ht, List.take_append_drop]

/-- Reading back a complete file returns the protocol and the messages, in order. -/
theorem C33_roundtrip (proto : List UInt8) (msgs : List (List UInt8)) (hp : SelfSized proto)
    (hm : ∀ m ∈ msgs, m.length < 2 ^ 63) :
    readFile (writeFile proto msgs) = (some proto, msgs, .complete) := by
  unfold writeFile
  rw [readFile_proto _ _ hp]
  have := readRecords_written msgs [] hm
  rw [List.append_nil] at this
  rw [this]
  have : readRecords [] = ([], .complete) := by rw [readRecords]; simp
  rw [this]; simp

/-- A file cut inside the protocol block is reported as invalid. -/
theorem C33_truncated_proto (proto : List UInt8) (msgs : List (List UInt8)) (hp : SelfSized proto)
    (k : Nat) (hk : k < proto.length) :
    readFile ((writeFile proto msgs).take k) = (none, [], .invalid) := by
  obtain ⟨h8, hlt, hsz⟩ := hp
  have e : (writeFile proto msgs).take k = proto.take k := by
    unfold writeFile; rw [List.take_append_of_le_length (by omega)]
  rw [e]
  unfold readFile
  by_cases hk8 : k < 8
  · rw [if_pos (by simp; omega)]
  · have ht : (proto.take k).take 8 = proto.take 8 := by
      rw [List.take_take]; congr 1; omega
    have hv : ofLE ((proto.take k).take 8) = proto.length := by
      rw [ht, hsz, ofLE_leBytes]; omega
    rw [if_neg (by simp; omega)]
    simp only [hv, toSigned_small _ hlt, Int.toNat_natCast]
    rw [if_neg (by omega), if_pos (by simp; omega)]

/-- A file cut inside the record of `m` yields exactly the complete messages before it and is
reported as invalid. -/
theorem C33_truncated_record (proto : List UInt8) (before after : List (List UInt8)) (m : List UInt8)
    (hp : SelfSized proto) (hm : ∀ x ∈ before ++ [m], x.length < 2 ^ 63) (j : Nat) (h0 : 0 < j)
    (hj : j < 8 + m.length) :
    readFile ((writeFile proto (before ++ m :: after)).take ((writeFile proto before).length + j))
      = (some proto, before, .invalid) := by
  have e : (writeFile proto (before ++ m :: after)).take ((writeFile proto before).length + j)
      = proto ++ ((before.map writeRecord).flatten ++ (writeRecord m).take j) := by
    have : writeFile proto (before ++ m :: after)
        = writeFile proto before ++ (writeRecord m ++ (after.map writeRecord).flatten) := by
      simp [writeFile, List.append_assoc]
    rw [this, List.take_length_add_append, List.take_append_of_le_length (by simp [writeRecord]; omega)]
    simp [writeFile, List.append_assoc]
  rw [e, readFile_proto _ _ hp, readRecords_written _ _ (fun x hx => hm x (by simp [hx])),
    readRecords_cut m j (hm m (by simp)) h0 (by simp [writeRecord]; omega)]
  simp

private theorem retry_claims (need claimed owned : Nat) (h : need ≤ claimed) :
    retryLoop need claimed owned = ([⟨claimed, owned⟩], claimed) := by
  rw [retryLoop, if_pos h]

/-- As long as no message needs more than the initial 1024 bytes, every attempt is told the true
size of its memory.  Missing for the full claim: larger messages, see `C33_retry_violated`. -/
theorem C33_retry_partial (needs : List Nat) (h : ∀ n ∈ needs, n ≤ 1024) :
    ∀ a ∈ pjcatAttempts needs, a.claimed ≤ a.owned := by
  unfold pjcatAttempts
  induction needs with
  | nil => simp [decodeAll]
  | cons n ns ih =>
    intro a ha
    rw [decodeAll, retry_claims n 1024 1024 (h n (by simp))] at ha
    simp only at ha
    rcases List.mem_append.1 ha with h' | h'
    · simp at h'; rw [h']; simp
    · exact ih (fun x hx => h x (by simp [hx])) a h'

private theorem retry_grows (need claimed owned : Nat) (hc : 0 < claimed) (hn : claimed < need) :
    ∃ a ∈ (retryLoop need claimed owned).1, need ≤ a.claimed ∧ a.owned = owned := by
  fun_induction retryLoop need claimed owned with
  | case1 claimed h => omega
  | case2 => omega
  | case3 claimed h h0 r ih =>
    by_cases h2 : 2 * claimed < need
    · obtain ⟨a, ha, h3⟩ := ih (by omega) h2
      exact ⟨a, List.mem_cons_of_mem _ ha, h3⟩
    · refine ⟨⟨2 * claimed, owned⟩, ?_, by simp; omega, rfl⟩
      simp only [r, retry_claims need (2 * claimed) owned (by omega)]
      simp

/-- The claim is false of every message that needs more than 1024 bytes: its successful attempt is
told a size beyond the 1024 bytes it owns, so the decoder writes outside of the buffer. -/
theorem C33_retry_violated (need : Nat) (h : 1024 < need) (needs : List Nat) :
    ∃ a ∈ pjcatAttempts (need :: needs), need ≤ a.claimed ∧ a.owned = 1024 := by
  obtain ⟨a, ha, h1, h2⟩ := retry_grows need 1024 1024 (by decide) h
  exact ⟨a, List.mem_append_left _ ha, h1, h2⟩

private theorem retry_sizes (need claimed owned : Nat) (hc : 0 < claimed) :
    claimed ≤ (retryLoop need claimed owned).2 ∧ need ≤ (retryLoop need claimed owned).2 ∧
      (∀ a ∈ (retryLoop need claimed owned).1, claimed ≤ a.claimed ∧ a.claimed ≤ (retryLoop need claimed owned).2 ∧ a.owned = owned) ∧
      (retryLoop need claimed owned).1.Pairwise fun a b => a.claimed ≤ b.claimed := by
  fun_induction retryLoop need claimed owned with
  | case1 claimed h => simp; omega
  | case2 => omega
  | case3 claimed h h0 r ih =>
    obtain ⟨h1, h2, h3, h4⟩ := ih (by omega)
    have h1 : 2 * claimed ≤ r.2 := h1
    refine ⟨by omega, h2, fun a ha => ?_, List.pairwise_cons.2 ⟨fun a ha => ?_, h4⟩⟩
    · rcases List.mem_cons.1 ha with rfl | ha
      · exact ⟨Nat.le_refl _, by show claimed ≤ _; omega, rfl⟩
      · have := h3 a ha
        exact ⟨by omega, this.2⟩
    · have := h3 a ha
      show claimed ≤ _
      omega

/-- The size told to the decoder never shrinks again: after a message that needs more than 1024 bytes every attempt
for any later message, however small, is told more than the buffer has, too. -/
theorem C33_retry_later_violated (before : List Nat) (need : Nat) (h : 1024 < need) (later : List Nat) :
    ∃ pre post, pjcatAttempts (before ++ need :: later) = pre ++ post ∧ later.length ≤ post.length ∧
      ∀ a ∈ post, need ≤ a.claimed ∧ a.owned = 1024 := by
  have hpost : ∀ (later : List Nat) c, need ≤ c → later.length ≤ (decodeAll later c 1024).length ∧
      ∀ a ∈ decodeAll later c 1024, need ≤ a.claimed ∧ a.owned = 1024 := by
    intro later
    induction later with
    | nil => intro c _; simp [decodeAll]
    | cons n ns ih =>
      intro c hc
      obtain ⟨h1, h2, h3, _⟩ := retry_sizes n c 1024 (by omega)
      obtain ⟨h4, h5⟩ := ih (retryLoop n c 1024).2 (by omega)
      have hne : 1 ≤ (retryLoop n c 1024).1.length := by
        rw [retryLoop]
        split
        · simp
        · rw [dif_neg (by omega)]; simp
      rw [decodeAll]
      refine ⟨by simp only [List.length_append, List.length_cons]; omega, fun a ha => ?_⟩
      rcases List.mem_append.1 ha with ha | ha
      · have := h3 a ha
        exact ⟨by omega, this.2.2⟩
      · exact h5 a ha
  have hpre : ∀ (before : List Nat) c, 0 < c → ∃ pre post, decodeAll (before ++ need :: later) c 1024 = pre ++ post ∧
      later.length ≤ post.length ∧ ∀ a ∈ post, need ≤ a.claimed ∧ a.owned = 1024 := by
    intro before
    induction before with
    | nil =>
      intro c hc
      obtain ⟨_, h2, _⟩ := retry_sizes need c 1024 hc
      obtain ⟨h4, h5⟩ := hpost later _ h2
      exact ⟨(retryLoop need c 1024).1, _, rfl, h4, h5⟩
    | cons n ns ih =>
      intro c hc
      obtain ⟨h1, _⟩ := retry_sizes n c 1024 hc
      obtain ⟨pre, post, e, h4, h5⟩ := ih (retryLoop n c 1024).2 (by omega)
      refine ⟨(retryLoop n c 1024).1 ++ pre, post, ?_, h4, h5⟩
      rw [List.cons_append, decodeAll, e, List.append_assoc]
  exact hpre before 1024 (by decide)

/-- Non-vacuity: a file with an (empty) protocol block and three records. -/
example : SelfSized (leBytes 8 10 ++ [1, 2]) ∧
    readFile (writeFile (leBytes 8 10 ++ [1, 2]) [[1, 2, 3], [], [4]])
      = (some (leBytes 8 10 ++ [1, 2]), [[1, 2, 3], [], [4]], .complete) := by
  have h : SelfSized (leBytes 8 10 ++ [1, 2]) := ⟨by simp, by simp, by simp [leBytes]⟩
  exact ⟨h, C33_roundtrip _ _ h (by simp)⟩

end PJ
