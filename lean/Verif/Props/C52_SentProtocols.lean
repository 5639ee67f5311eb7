import Verif.Lemmas.Decide
import Verif.Lemmas.ValEq
import Verif.Lemmas.ReflectObj
import Verif.Props.Planned
import Verif.Props.C29_Transport
import Verif.Props.C51_EndToEnd
/-!
# C52: protocols survive being sent as bytes

`encodeProto` writes a protocol into a buffer, in the format of `pj/schema/reflect.pj.v0_1.hpp`, and `decodeProto` makes a
protocol from such bytes.  The protocol made encodes, decodes and sizes exactly like the one that was sent.

`_partial`: the full claim is about the C++ object that `unreflect` gets.  The object has the right value as the schema
describes it, but its enums are wider than described, and the bytes beyond are undefined (`C52_violated`).
-/
namespace PJ

/-- The checked-in format is the one that is planned from the C++ type. -/
theorem C52_schema : plan Refl.host [] = some Refl.proto := by decide +kernel

/-- The C++ type is one that the claims about planned protocols hold of. -/
theorem C52_host : HostTy Refl.host := by decide +kernel

-- Nothing below depends on what they are.
attribute [local irreducible] Refl.host Refl.proto Refl.objOf

theorem readBytes_drop_take (m : Mem) (a n i k : Nat) (h : i + k ≤ n) :
    ((readBytes m a n).drop i).take k = readBytes m (a + i) k := by
  apply List.ext_getElem?
  intro j
  by_cases hj : j < k
  · rw [List.getElem?_take_of_lt hj, List.getElem?_drop, readBytes_getElem? _ _ _ _ (by omega),
      readBytes_getElem? _ _ _ _ hj, Nat.add_assoc]
  · rw [List.getElem?_eq_none (by simp; omega), List.getElem?_eq_none (by simp; omega)]

theorem read64_readBytes (m : Mem) (a n i : Nat) (h : i + 8 ≤ n) :
    read64 (readBytes m a n) i = some (readN m (a + i) 8) := by
  simp [read64, h, readBytes_drop_take m a n i 8 h, readN]

/-- One block is found at once. -/
theorem frame_one (m : Mem) (file len version size : Nat) (h0 : readN m file 8 = 24 + size)
    (h8 : readN m (file + 8) 8 = version) (h16 : readN m (file + 16) 8 = size) (hv : 0 < version)
    (hs : 24 + size < W64) (hl : 24 + size ≤ len) :
    ∃ b, decodeProto (· == version) (readBytes m file len) = .found version 24 b := by
  have r0 : read64 (readBytes m file len) 0 = some (24 + size) := by rw [read64_readBytes _ _ _ _ (by omega), ← h0]; rfl
  have r8 : read64 (readBytes m file len) 8 = some version := by rw [read64_readBytes _ _ _ _ (by omega), h8]
  have r16 : read64 (readBytes m file len) (8 + 8) = some size := by rw [read64_readBytes _ _ _ _ (by omega), h16]
  refine ⟨((readBytes m file len).drop 24).take size, ?_⟩
  unfold decodeProto
  rw [r0]
  simp only
  rw [frameLoop, dif_pos (by omega)]
  simp only [r8, r16, beq_self_eq_true, Bool.true_and, gt_iff_lt, hv, decide_true, if_true]
  rw [if_pos (by omega), frameLoop, dif_neg (by omega)]
  unfold frameFinish
  simp only
  rw [if_neg (by omega), if_pos (by simp; omega)]

theorem encodeBlock_ok {o : Option Nat} {f : Nat → Mem → Res} {buf S : Nat} {m m0 : Mem} {s : St} (ho : o = some S)
    (hm : writeN (writeN m (buf + 8) 8 Refl.version) (buf + 16) 8 S = m0) (hf : f (buf + 24) m0 = .ok s) :
    Refl.encodeBlock o f buf m = some (writeN s.mem buf 8 (24 + S)) := by
  subst ho hm
  simp only [Refl.encodeBlock, hf]

theorem decodeProtoAt_ok {E : Env} {file len obj pos v fuel : Nat} {buffers : Nat → Nat} {m : Mem} {b : List UInt8}
    {d : Decoded} (h : decodeProto (· == Refl.version) (readBytes E.S file len) = .found v pos b)
    (hd : Refl.decodeLoop (decode E Refl.proto Refl.host [] (file + pos) obj) buffers fuel 0 m = some d) :
    Refl.decodeProtoAt E file len obj buffers fuel m = some d.mem := by
  unfold Refl.decodeProtoAt
  rw [h]
  simp only [hd, Option.map_some]

/-- The loop doubles the buffer until the object fits, and then has it. -/
theorem decodeLoop_value (E : Env) (msg obj : Nat) (buffers : Nat → Nat) (v : Val)
    (hv : readVal E.S Refl.proto.head msg = some v) (hw : conv E.fconv Refl.host v = some v) (k : Nat)
    (hcap : 8192 * 2 ^ k < 2 ^ 63) (hfit : fin Refl.host v (buffers k) ≤ buffers k + 8192 * 2 ^ k)
    (hb : ∀ j, j ≤ k → buffers j + 8192 * 2 ^ j < W64 ∧ Disj obj Refl.host.size (buffers j) (8192 * 2 ^ j) ∧
      fin Refl.host v (buffers j) < W64 ∧ fin Refl.host v (buffers j) ≤ buffers j + 2 ^ 63)
    (ho : obj + Refl.host.size < W64) :
    ∀ (j fuel : Nat) (m : Mem), j ≤ k → k < j + fuel →
      ∃ d, Refl.decodeLoop (decode E Refl.proto Refl.host [] msg obj) buffers fuel j m = some d ∧ readVal d.mem Refl.host obj = some v := by
  obtain ⟨hok, -, -, hrel, -⟩ := plan_ok _ _ _ C52_host.sch C52_host.small C52_host.plain C52_host.noOut C52_schema
  obtain ⟨hc, -⟩ := rel_compat _ _ hrel C52_host.plain C52_host.wf hok.wf
  intro j fuel
  induction fuel generalizing j with
  | zero => intro m h1 h2; omega
  | succ fuel ih =>
    intro m h1 h2
    obtain ⟨b1, b2, b3, b4⟩ := hb j h1
    have hpow : 2 ^ j ≤ 2 ^ k := Nat.pow_le_pow_right (by omega) h1
    obtain ⟨d, g1, g2, g3⟩ := C06_decode_buffer_partial E Refl.proto Refl.host [] msg obj (buffers j) (8192 * 2 ^ j)
      (fun x => if buffers j ≤ x ∧ x < buffers j + 8192 * 2 ^ j then 0 else m x) v v hok.wf C52_host.wf C52_host.noOut hc
      (HsOK_nil _) hv hw (by omega) b3 b4
    rw [Refl.decodeLoop, g1]
    simp only
    by_cases hf : fin Refl.host v (buffers j) ≤ buffers j + 8192 * 2 ^ j
    · have hge := fin_ge Refl.host v (buffers j) C52_host.wf
      rw [if_pos (by rw [(g2 hf).2]; omega)]
      obtain ⟨d', e1, e2⟩ := decode_value E Refl.proto Refl.host [] msg obj (buffers j) (8192 * 2 ^ j)
        (fun x => if buffers j ≤ x ∧ x < buffers j + 8192 * 2 ^ j then 0 else m x) v v hok.wf C52_host.wf C52_host.noOut hc
        (HsOK_nil _) hv hw (by omega) hf b1 ho b2
      cases g1.symm.trans e1
      exact ⟨d, rfl, e2⟩
    · have hjk : j ≠ k := fun h => hf (h ▸ hfit)
      rw [if_neg (by rw [g3 (by omega)]; decide)]
      exact ih (j + 1) d.mem (by omega) (by omega)

/-- A protocol `⟨t, b⟩` is sent: `reflect` has made an object of the value `objOf p` at `obj`.  Then `encodeProto`
returns, having written nothing but the bytes that `getProtoSize` asks for, which begin with their number; from a copy of these, followed by
anything, `decodeProto` gets an object of the same value, whatever the addresses of the buffers that it allocates are, if
the buffer of some round is large enough; and the protocol that `unreflect` makes from it is as good as the one sent. -/
theorem C52_sent_partial (ctx : Ctx) (fuel : Nat) (head : Ref) (b : Nat) (p : PProto) (wf : WFRef ctx head)
    (h : reflectProto ctx fuel head b = some p) (hl : p.types.length < 2 ^ 31)
    (E : Env) (obj buf : Nat) (mem : Mem) (hv : readVal E.S Refl.host obj = some (Refl.objOf p))
    (hq : fin Refl.proto.head (Refl.objOf p) (buf + 24 + Refl.proto.head.size) < W64)
    (hroom : ∀ k, cost true E.S Refl.proto.head Refl.host [] obj = some k → buf + 24 + (k + Refl.proto.head.size) < W64) :
    ∃ mem' size, Refl.encodeProtoAt E obj buf mem = some mem' ∧ Refl.getProtoSize E.S obj = some size ∧
      (∀ a, ¬ (buf ≤ a ∧ a < buf + size) → mem' a = mem a) ∧ (24 ≤ size ∧ readN mem' buf 8 = size) ∧
      ∀ (m2 : Mem) (file len : Nat), size ≤ len → file + len < W64 → (∀ i, i < size → m2 (file + i) = mem' (buf + i)) →
      ∀ (m3 : Mem) (dst : Nat) (buffers : Nat → Nat) (k rounds : Nat), dst + Refl.host.size < W64 →
        8192 * 2 ^ k < 2 ^ 63 → fin Refl.host (Refl.objOf p) (buffers k) ≤ buffers k + 8192 * 2 ^ k →
        (∀ j, j ≤ k → buffers j + 8192 * 2 ^ j < W64 ∧ Disj dst Refl.host.size (buffers j) (8192 * 2 ^ j) ∧
          fin Refl.host (Refl.objOf p) (buffers j) < W64 ∧
          fin Refl.host (Refl.objOf p) (buffers j) ≤ buffers j + 2 ^ 63) → k < rounds →
      ∃ m4 v, Refl.decodeProtoAt { E with S := m2 } file len dst buffers rounds m3 = some m4 ∧
        readVal m4 Refl.host dst = some v ∧ Refl.ofObj v = some p ∧
        ∀ n t, tree ctx n head = some t →
        ∃ head' ctx' t', unreflectProto p.types.length p = some (head', b, ctx') ∧ tree ctx' n head' = some t' ∧
          (∀ E host path obj buf mem, encode E host ⟨t', b⟩ path obj buf mem = encode E host ⟨t, b⟩ path obj buf mem) ∧
          (∀ E host hs msg obj buf cap mem,
            decode E ⟨t', b⟩ host hs msg obj buf cap mem = decode E ⟨t, b⟩ host hs msg obj buf cap mem) ∧
          (∀ ru S host path obj, sizeFn ru S host ⟨t', b⟩ path obj = sizeFn ru S host ⟨t, b⟩ path obj) ∧
          reflectable t' = reflectable t ∧ (∀ E schema at' msg obj buf cap mem,
            decodeAny E schema at' ⟨t', b⟩ msg obj buf cap mem = decodeAny E schema at' ⟨t, b⟩ msg obj buf cap mem) := by
  obtain ⟨hok, hbo, -, hrel, hfit⟩ := plan_ok _ _ _ C52_host.sch C52_host.small C52_host.plain C52_host.noOut C52_schema
  obtain ⟨-, hc⟩ := rel_compat _ _ hrel C52_host.plain C52_host.wf hok.wf
  have hf := readVal_fits E.S _ obj _ C52_host.plain hv
  have hx := conv_fits E.fconv Refl.host _ C52_host.wf hf
  have hw := conv_fits E.fconv Refl.proto.head _ hok.wf (hfit _ hf)
  obtain ⟨-, k0, -, hk0, hsz, -, -⟩ := C04_planned_partial E _ _ _ obj (buf + 24) mem _ C52_host C52_schema hv hq
  have hk := hroom k0 hk0
  have hW : W64 = 256 ^ 8 := by decide
  rw [Nat.mod_eq_of_lt (by omega)] at hsz
  generalize hS : k0 + Refl.proto.head.size = S at *
  generalize hm0 : writeN (writeN mem (buf + 8) 8 Refl.version) (buf + 16) 8 S = m0
  obtain ⟨s, k1, e1, e2, e3, e4, e5⟩ := C04_planned_partial E _ _ _ obj (buf + 24) m0 _ C52_host C52_schema hv hq
  cases hk0.symm.trans e2
  rw [hS] at e4 e5
  obtain ⟨-, c2⟩ := C02_copies_partial E _ Refl.proto obj (buf + 24) m0 s _ _ hok C52_host.wf hc hv hw
    (by rw [hbo]; exact hq) e1
  have hlow : ∀ x, x < buf + 24 → buf + 8 ≤ x → s.mem x = m0 x := fun x h1 h2 => e5 x (by omega)
  have hbytes : ∀ x, buf + 8 ≤ x → writeN s.mem buf 8 (24 + S) x = s.mem x := fun x hx =>
    writeN_out _ _ _ _ _ (Or.inr hx)
  refine ⟨writeN s.mem buf 8 (24 + S), 24 + S, ?_, ?_, ?_, ⟨by omega, ?_⟩, ?_⟩
  · exact encodeBlock_ok (f := encode E Refl.host Refl.proto [] obj) hsz hm0 e1
  · simp only [Refl.getProtoSize, hsz, Option.map_some]
    rw [Nat.mod_eq_of_lt (by omega)]
  · intro a ha
    rw [writeN_out _ _ _ _ _ (by omega), e5 a (by omega), ← hm0, writeN_out _ _ _ _ _ (by omega),
      writeN_out _ _ _ _ _ (by omega)]
  · rw [readN_writeN]
    exact Nat.mod_eq_of_lt (by omega)
  · intro m2 file len h1 h2 h3 m3 dst buffers k rounds h4 h5 h6 h7 h8
    have r0 : readN m2 file 8 = 24 + S := by
      rw [readN_congr (m := writeN s.mem buf 8 (24 + S)) (a := buf) fun i hi => h3 i (by omega), readN_writeN]
      exact Nat.mod_eq_of_lt (by omega)
    have r8 : readN m2 (file + 8) 8 = Refl.version := by
      rw [readN_congr (m := writeN mem (buf + 8) 8 Refl.version) (a := buf + 8) fun i hi => by
        rw [Nat.add_assoc, h3 _ (by omega), ← Nat.add_assoc, hbytes _ (by omega), hlow _ (by omega) (by omega), ← hm0,
          writeN_out _ _ _ _ _ (by omega)], readN_writeN]
      rfl
    have r16 : readN m2 (file + 16) 8 = S := by
      rw [readN_congr (m := m0) (a := buf + 16) fun i hi => by
        rw [Nat.add_assoc, h3 _ (by omega), ← Nat.add_assoc, hbytes _ (by omega), hlow _ (by omega) (by omega)], ← hm0,
        readN_writeN]
      exact Nat.mod_eq_of_lt (by omega)
    obtain ⟨body, hfound⟩ := frame_one m2 file len Refl.version S r0 r8 r16 (by decide) (by omega) h1
    have hrd : readVal m2 Refl.proto.head (file + 24) = some (Refl.objOf p) :=
      c2 m2 (file + 24) (by omega) fun i hi => by
        rw [Nat.add_assoc, h3 _ (by omega), ← Nat.add_assoc, hbytes _ (by omega)]
    obtain ⟨d, d1, d2⟩ := decodeLoop_value { E with S := m2 } (file + 24) dst buffers _ hrd hx k h5 h6 h7 h4 0 rounds m3
      (by omega) (by omega)
    refine ⟨d.mem, _, ?_, d2, Refl.ofObj_objOf p, fun n t ht => ?_⟩
    · exact decodeProtoAt_ok (E := { E with S := m2 }) hfound d1
    · obtain ⟨head', ctx', t', g1, g2, g3, g4, g5, -, g6⟩ := C29_codec ctx fuel head b p wf h hl n t ht
      exact ⟨head', ctx', t', g1, g2, g3, g4, g5, g6⟩

/-! ## Instances -/
namespace C52

def memOf (bytes : List (Nat × UInt8)) : Mem := fun a => (bytes.lookup a).getD 0

def env (bytes : List (Nat × UInt8)) : Env := { S := memOf bytes, J := fun _ => 0xff, fconv := fun _ _ b => b }

/-- The object for the protocol of C29's sample, with five types, at 1000: the bytes that are not 0. -/
def bytes : List (Nat × UInt8) :=
  [(1004, 4), (1008, 72), (1024, 5), (1016, 16), (1032, 32), (1040, 8), (1144, 1), (1152, 1), (1160, 8), (1264, 2),
   (1280, 2), (1272, 104), (1273, 1), (1640, 1), (1632, 32), (1664, 110), (1656, 1), (1648, 24), (1672, 83),
   (1296, 2), (1288, 136), (1289, 1), (1680, 254), (1681, 255), (1682, 255), (1683, 255), (1696, 1), (1688, 56),
   (1744, 97), (1712, 255), (1713, 255), (1714, 255), (1715, 255), (1728, 1), (1720, 32), (1752, 98), (1736, 32),
   (1304, 64), (1312, 8), (1384, 4), (1392, 255), (1393, 255), (1394, 255), (1395, 255), (1400, 40), (1408, 3),
   (1416, 9), (1440, 8), (1448, 8), (1456, 64), (1464, 1), (1472, 8), (1480, 72), (1488, 128), (1496, 8), (1504, 8),
   (1520, 2), (1512, 248), (1768, 1), (1760, 32), (1792, 110), (1784, 1), (1776, 24), (1800, 86), (1536, 3),
   (1528, 24), (1529, 1), (1816, 1), (1808, 144), (1952, 120), (1824, 254), (1825, 255), (1826, 255), (1827, 255),
   (1832, 1), (1840, 120), (1864, 1), (1856, 104), (1960, 121), (1872, 255), (1873, 255), (1874, 255), (1875, 255),
   (1880, 2), (1896, 1), (1888, 80), (1968, 2), (1976, 3), (1992, 1), (1984, 32), (2024, 1), (2016, 16), (2032, 95),
   (2000, 1), (2008, 1), (1912, 1), (1904, 136), (2040, 121), (1920, 255), (1921, 255), (1922, 255), (1923, 255),
   (1928, 3), (1944, 1), (1936, 112), (2048, 1), (2056, 3), (2072, 1), (2064, 32), (2104, 1), (2096, 16), (2112, 95),
   (2088, 1), (1544, 1), (1552, 8), (1560, 8), (1568, 72), (1576, 8), (1624, 6)]

def sent : Option PProto := reflectProto Sample.reflCtx 4 (.nom Sample.reflKeyV) 9

/-- An object for the protocol `int32`, at 1000. -/
def bytesI : List (Nat × UInt8) := [(1024, 1), (1016, 16), (1032, 32), (1040, 8), (1144, 1)]

def sentI : PProto := ⟨0, 0, 0, [.int 4 .signed 1]⟩

/-- What is at the place of the `sign` after `encodeProto` and `decodeProto`, and whether the value is right. -/
def signWord : Option (Bool × Nat) :=
  match Refl.encodeProtoAt (env bytesI) 1000 5000 (fun _ => 0) with
  | none => none
  | some m =>
    match Refl.decodeProtoAt { env bytesI with S := m } 5000 1000 9000 (fun _ => 10000) 1 (fun _ => 0) with
    | none => none
    | some m4 => some (decide (readVal m4 Refl.host 9000 = some (Refl.objOf sentI)), readN m4 (10000 + 16) 4)

theorem signWord_eq : signWord = some (true, 0xffffff00) := by decide +kernel

theorem bytes_val : ∀ p, sent = some p → readVal (memOf bytes) Refl.host 1000 = some (Refl.objOf p) := by
  decide +kernel

theorem bytes_fin : ∀ p, sent = some p → p.types.length < 2 ^ 31 ∧
    fin Refl.proto.head (Refl.objOf p) (5000 + 24 + Refl.proto.head.size) < W64 ∧
    fin Refl.host (Refl.objOf p) 10000 ≤ 10000 + 8192 * 2 ^ 0 := by
  decide +kernel

theorem bytes_cost : cost true (memOf bytes) Refl.proto.head Refl.host [] 1000 = some 859 := by decide +kernel

end C52

open C52 in
/-- The sample is sent: `getProtoSize` asks for 915 bytes, and the first buffer is large enough. -/
example : ∃ p mem' m4, sent = some p ∧ Refl.encodeProtoAt (env bytes) 1000 5000 (fun _ => 0) = some mem' ∧
    Refl.decodeProtoAt { env bytes with S := mem' } 5000 3000 9000 (fun _ => 10000) 1 (fun _ => 0xaa) = some m4 ∧
    (readVal m4 Refl.host 9000).bind Refl.ofObj = some p := by
  obtain ⟨p, hp⟩ : ∃ p, sent = some p := Option.isSome_iff_exists.1 (by decide +kernel)
  obtain ⟨f1, f2, f3⟩ := bytes_fin p hp
  have hge := fin_ge Refl.host (Refl.objOf p) 10000 C52_host.wf
  have hsz : Refl.host.size = 32 := by decide +kernel
  have hpz : Refl.proto.head.size = 32 := by decide +kernel
  obtain ⟨mem', size, h1, h2, -, -, h4⟩ := C52_sent_partial _ _ _ _ p Sample.reflCtx_wf hp f1 (env bytes) 1000 5000 (fun _ => 0)
    (bytes_val p hp) f2 (fun k hk => by cases bytes_cost.symm.trans hk; rw [hpz]; decide)
  have hs : Refl.getProtoSize (memOf bytes) 1000 = some 915 := by decide +kernel
  cases h2.symm.trans hs
  obtain ⟨m4, v, g1, g2, g3, -⟩ := h4 mem' 5000 3000 (by decide) (by decide) (fun _ _ => rfl) (fun _ => 0xaa) 9000
    (fun _ => 10000) 0 1 (by rw [hsz]; decide) (by decide) f3 (fun j hj => by
      cases Nat.le_zero.1 hj
      have hW : W64 = 2 ^ 64 := rfl
      refine ⟨by decide, by rw [hsz]; unfold Disj; omega, by omega, by omega⟩) (by omega)
  exact ⟨p, mem', m4, hp, h1, g1, by rw [g2]; exact g3⟩

open C52 in
/-- The C++ object is not what was sent: `sign` was 0, `kSigned`, and the object that is decoded has the same value as
the descriptions say, but three of the four bytes of its `sign` are whatever the poison was. -/
theorem C52_violated : reflectProto (fun _ => none) 1 (.int 4 .signed 1) 0 = some sentI ∧
    readVal (memOf bytesI) Refl.host 1000 = some (Refl.objOf sentI) ∧ readN (memOf bytesI) (1032 + 16) 4 = 0 ∧
    ∃ m m4, Refl.encodeProtoAt (env bytesI) 1000 5000 (fun _ => 0) = some m ∧
      Refl.decodeProtoAt { env bytesI with S := m } 5000 1000 9000 (fun _ => 10000) 1 (fun _ => 0) = some m4 ∧
      readVal m4 Refl.host 9000 = some (Refl.objOf sentI) ∧ readN m4 (10000 + 16) 4 ≠ 0 := by
  refine ⟨by rfl, by decide +kernel, by decide +kernel, ?_⟩
  have h := signWord_eq
  unfold signWord at h
  split at h
  · simp at h
  · next m hm =>
    split at h
    · simp at h
    · next m4 hm4 =>
      simp only [Option.some.injEq, Prod.mk.injEq, decide_eq_true_eq] at h
      exact ⟨m, m4, hm, hm4, h.1, by rw [h.2]; decide⟩

end PJ
