import Verif.Lemmas.Json
import Verif.Props.C31_Any
import Verif.Props.C33_RecordFile
import Verif.Props.C52_SentProtocols
/-!
# C53: `pjcat` prints what was written

A file with a protocol and with messages of values is printed as one JSON text per line, from which the values can be
told.

`_partial`: without floats, which are printed with six digits; with strings of characters that stand for themselves in
JSON, since `print` does not escape (`C53_violated`); and if 1024 bytes are enough for every message
(`C33_retry_violated`).
-/
namespace PJ

open Json

/-- What is printed for a list of values. -/
def catText (F : Nat → Nat → List Char) (xs : List AVal) : List Char := (xs.map fun x => printAny F x ++ ['\n']).flatten

/-- The text is JSON, and says what it should. -/
theorem C53_json_partial (F : Nat → Nat → List Char) : ∀ (xs : List AVal), (∀ x ∈ xs, Clean x) →
    Text (catText F xs) (xs.map jsonOf)
  | [], _ => ⟨1, by simp [catText, lines]⟩
  | x :: xs, h => by
    obtain ⟨n, hn⟩ := print_value F x (h x (by simp))
    obtain ⟨m, hm⟩ := C53_json_partial F xs fun y hy => h y (by simp [hy])
    refine ⟨max n m + 1, ?_⟩
    have e : catText F (x :: xs) = printAny F x ++ '\n' :: catText F xs := by simp [catText]
    obtain ⟨c, r, hc, _⟩ := printAny_head F x (h x (by simp))
    rw [e, lines, if_neg (by simp [hc]), hn _ (Nat.le_max_left n m) _ (stops_newline _)]
    simp only [List.head?_cons, if_true, List.tail_cons, lines_mono hm (Nat.le_max_right n m), Option.map_some, List.map_cons]

/-- From what is printed for values of a type one can tell the values. -/
theorem C53_injective_partial (F : Nat → Nat → List Char) (t : Ty) (hw : WF t) (vs ws : List Val) (xs ys : List AVal)
    (hx : mapAll (view t) vs = some xs) (hy : mapAll (view t) ws = some ys) (cx : ∀ x ∈ xs, Clean x)
    (cy : ∀ y ∈ ys, Clean y) (h : catText F xs = catText F ys) : vs = ws := by
  have h1 := C53_json_partial F xs cx
  have h2 := C53_json_partial F ys cy
  rw [h] at h1
  have he := h1.unique h2
  have hj : ∀ l : List AVal, l.map jsonOf = jsonElems l := by
    intro l; induction l with
    | nil => rfl
    | cons x l ih => simp [jsonElems, ih]
  have hcl : ∀ l : List AVal, (∀ x ∈ l, Clean x) → CleanElems l := by
    intro l; induction l with
    | nil => intro _; trivial
    | cons x l ih => exact fun h => ⟨h x (by simp), ih fun y hy => h y (by simp [hy])⟩
  rw [hj, hj] at he
  exact view_inj_elems (fun v w x y => view_inj t v w x y hw) vs ws xs ys hx hy (hcl _ cx) (hcl _ cy) he

/-! ## Files -/

/-- `msg` is the message that was encoded for an object of the value `v`, for which 1024 bytes at `dbuf` are enough. -/
structure Written (E : Env) (host : Ty) (p : Proto) (dbuf : Nat) (v : Val) (msg : List UInt8) : Prop where
  encoded : ∃ (S mem : Mem) (obj buf : Nat) (s : St), readVal S host obj = some v ∧
    fin p.head v (buf + p.head.size) < W64 ∧ encode { E with S := S } host p [] obj buf mem = .ok s ∧
    msg = readBytes s.mem buf (s.ptr - buf)
  enough : anyFin p.head v dbuf ≤ dbuf + 1024

/-- The reader's side fits together: the pool is that of the reflectable type, and `any` is not in the buffer. -/
structure Cat.OK (c : Cat) : Prop where
  pool : ∃ (ctx : Ctx) (head : Ref) (fuel n : Nat), WFRef ctx head ∧ tree ctx n head = some (reflectable c.p.head) ∧
    reflectProto ctx fuel head 0 = some c.pool
  types : c.pool.types.length < 2 ^ 31
  schema : c.schema < 2 ^ 64
  room : c.dbuf + 1024 < W64
  apart : Disj c.any anySize c.dbuf 1024

theorem HoldsAt.bytes {m m' : Mem} {a b n : Nat} (h : HoldsAt m a (readBytes m' b n)) :
    a + n < W64 ∧ ∀ i, i < n → m (a + i) = m' (b + i) := by
  obtain ⟨h1, h2⟩ := h
  rw [readBytes_length] at h1
  refine ⟨h1, fun i hi => ?_⟩
  have := h2 i (by rw [readBytes_length]; exact hi)
  rw [this]
  have hg := readBytes_getElem? m' b n i hi
  rw [List.getElem?_eq_getElem (by rw [readBytes_length]; exact hi)] at hg
  exact Option.some.inj hg

theorem HoldsAt.exists (bytes : List UInt8) (h : bytes.length < W64) : ∃ m a, HoldsAt m a bytes := by
  refine ⟨fun i => bytes[i]?.getD 0, 0, by simpa using h, fun i hi => ?_⟩
  simp [hi]

/-- The protocol of the file does what the writer's protocol does. -/
structure Cat.Reads (c : Cat) (p : Proto) : Prop where
  reflectable : reflectable c.p.head = reflectable p.head
  decode : ∀ E schema at' msg obj buf cap mem,
    decodeAny E schema at' c.p msg obj buf cap mem = decodeAny E schema at' p msg obj buf cap mem

/-- One message is printed, at the first attempt. -/
theorem Cat.one (c : Cat) (hc : c.OK) (host : Ty) (path : Path) (p : Proto) (hh : HostTy host) (hwd : Words host)
    (hp : plan host path = some p) (hr : c.Reads p) (v : Val) (msg : List UInt8)
    (hw : Written c.E host p c.dbuf v msg) :
    ∃ x, view host v = some x ∧ (∃ d, c.Call 1024 msg d) ∧ ∀ d, c.Call 1024 msg d → d.size < 2 ^ 63 ∧
      anyRead c.pool.types d.mem c.pool.types.length (anyIndex d.mem c.any) (anyData d.mem c.any) = some x := by
  obtain ⟨⟨S, mem, obj, buf, s, hv, hq, he, rfl⟩, hen⟩ := hw
  obtain ⟨s', x, h1, h2, h3⟩ := C31_any_partial { c.E with S := S } host path p obj buf mem v hh hwd hp hv hq
  rw [he] at h1
  cases h1
  obtain ⟨ctx, head, fuel, n, w1, w2, w3⟩ := hc.pool
  rw [hr.reflectable] at w2
  have key : ∀ (src mem : Mem) (mb : Nat), HoldsAt src mb (readBytes s.mem buf (s.ptr - buf)) →
      ∃ d, decodeAny { c.E with S := src } c.schema c.pool.head c.p mb c.any c.dbuf 1024 mem = some d ∧ d.size ≤ 1024 ∧
        anyRead c.pool.types d.mem c.pool.types.length (anyIndex d.mem c.any) (anyData d.mem c.any) = some x := by
    intro src mem mb hH
    obtain ⟨g1, g2⟩ := hH.bytes
    obtain ⟨d, k1, k2, _, k4⟩ := h3 src mb g1 g2 ctx head fuel n c.pool c.schema w1 w2 w3 hc.types hc.schema mem c.any
      c.dbuf 1024 (by decide) hc.room hc.apart hen
    exact ⟨d, by rw [hr.decode]; exact k1, by omega, k4⟩
  refine ⟨x, h2, ?_, ?_⟩
  · obtain ⟨_, hs', _⟩ := C01_round_trip_partial { c.E with S := S } host path p obj buf mem v hh hp hv hq
    obtain ⟨m, a, hm⟩ := HoldsAt.exists (readBytes s.mem buf (s.ptr - buf)) (by
      rw [readBytes_length]
      rw [he] at hs'
      cases hs'
      rename_i hx
      have := hx.1
      omega)
    obtain ⟨d, k1, _⟩ := key m (fun _ => 0) a hm
    exact ⟨d, .mk m (fun _ => 0) a hm k1⟩
  · rintro d ⟨src, mem', mb, hH, hd⟩
    obtain ⟨d', k1, k2, k3⟩ := key src mem' mb hH
    rw [k1] at hd
    cases hd
    exact ⟨by omega, k3⟩

theorem Cat.all (c : Cat) (hc : c.OK) (host : Ty) (path : Path) (p : Proto) (hh : HostTy host) (hwd : Words host)
    (hp : plan host path = some p) (hp' : c.Reads p) : ∀ (vs : List Val) (msgs : List (List UInt8)),
    vs.length = msgs.length → (∀ x ∈ vs.zip msgs, Written c.E host p c.dbuf x.1 x.2) →
    ∃ xs, mapAll (view host) vs = some xs ∧ c.Msgs 1024 msgs (catText c.F xs) ∧
      ∀ out, c.Msgs 1024 msgs out → out = catText c.F xs
  | [], [], _, _ => ⟨[], rfl, .nil, fun out h => by cases h; rfl⟩
  | [], _ :: _, h, _ => by simp at h
  | _ :: _, [], h, _ => by simp at h
  | v :: vs, msg :: msgs, hl, hw => by
    obtain ⟨x, h1, ⟨d, h2⟩, h3⟩ := c.one hc host path p hh hwd hp hp' v msg (hw (v, msg) (by simp))
    obtain ⟨xs, g1, g2, g3⟩ := c.all hc host path p hh hwd hp hp' vs msgs (by simpa using hl)
      fun y hy => hw y (by simp [hy])
    have e : catText c.F (x :: xs) = (printAny c.F x ++ ['\n']) ++ catText c.F xs := by simp [catText]
    refine ⟨x :: xs, by simp [mapAll, h1, g1], ?_, ?_⟩
    · rw [e]
      exact .cons (.done h2 (h3 d h2).1 (h3 d h2).2) g2
    · intro out ho
      cases ho with
      | cons hm hr =>
        rw [e]
        cases hm with
        | done k1 k2 k3 =>
          rw [(h3 _ k1).2] at k3
          cases k3
          rw [g3 _ hr]
        | retry k1 k2 _ => exact absurd (h3 _ k1).1 k2

/-- A list of messages is printed, and all there is to be printed is the text of the values. -/
theorem C53_messages_partial (c : Cat) (hc : c.OK) (host : Ty) (path : Path) (hh : HostTy host) (hwd : Words host)
    (hp : plan host path = some c.p) (vs : List Val) (msgs : List (List UInt8)) (hl : vs.length = msgs.length)
    (hw : ∀ x ∈ vs.zip msgs, Written c.E host c.p c.dbuf x.1 x.2) :
    ∃ xs, mapAll (view host) vs = some xs ∧ c.Msgs 1024 msgs (catText c.F xs) ∧
      ∀ out, c.Msgs 1024 msgs out → out = catText c.F xs :=
  c.all hc host path c.p hh hwd hp ⟨rfl, fun _ _ _ _ _ _ _ _ => rfl⟩ vs msgs hl hw

/-- From the file to the text: the writer sends the protocol by `encodeProto` and then the messages of the values `vs`;
`pjcat` splits the file, gets the protocol by `decodeProto` and prints the values, and cannot print anything else. -/
theorem C53_file_partial (ctx : Ctx) (fuel : Nat) (head : Ref) (b : Nat) (pp : PProto) (wf : WFRef ctx head)
    (h : reflectProto ctx fuel head b = some pp) (hl : pp.types.length < 2 ^ 31)
    (E : Env) (obj buf : Nat) (mem : Mem) (hv : readVal E.S Refl.host obj = some (Refl.objOf pp))
    (hq : fin Refl.proto.head (Refl.objOf pp) (buf + 24 + Refl.proto.head.size) < W64)
    (hroom : ∀ k, cost true E.S Refl.proto.head Refl.host [] obj = some k → buf + 24 + (k + Refl.proto.head.size) < W64)
    (host : Ty) (path : Path) (n : Nat) (t : Ty) (hh : HostTy host) (hwd : Words host)
    (hp : plan host path = some ⟨t, b⟩) (ht : tree ctx n head = some t)
    (vs : List Val) (msgs : List (List UInt8)) (hn : vs.length = msgs.length) (hm : ∀ m ∈ msgs, m.length < 2 ^ 63) :
    ∃ mem' size, Refl.encodeProtoAt E obj buf mem = some mem' ∧ Refl.getProtoSize E.S obj = some size ∧
      (size < 2 ^ 63 →
      readFile (writeFile (readBytes mem' buf size) msgs) = (some (readBytes mem' buf size), msgs, .complete) ∧
      ∀ (m2 : Mem) (file : Nat), HoldsAt m2 file (readBytes mem' buf size) →
      ∀ (m3 : Mem) (dst : Nat) (buffers : Nat → Nat) (k rounds : Nat), dst + Refl.host.size < W64 →
        8192 * 2 ^ k < 2 ^ 63 → fin Refl.host (Refl.objOf pp) (buffers k) ≤ buffers k + 8192 * 2 ^ k →
        (∀ j, j ≤ k → buffers j + 8192 * 2 ^ j < W64 ∧ Disj dst Refl.host.size (buffers j) (8192 * 2 ^ j) ∧
          fin Refl.host (Refl.objOf pp) (buffers j) < W64 ∧
          fin Refl.host (Refl.objOf pp) (buffers j) ≤ buffers j + 2 ^ 63) → k < rounds →
      ∃ m4 v head' ctx' t', Refl.decodeProtoAt { E with S := m2 } file size dst buffers rounds m3 = some m4 ∧
        readVal m4 Refl.host dst = some v ∧ Refl.ofObj v = some pp ∧
        unreflectProto pp.types.length pp = some (head', b, ctx') ∧ tree ctx' n head' = some t' ∧
        ∀ c : Cat, c.E = E → c.p = ⟨t', b⟩ → c.OK → (∀ x ∈ vs.zip msgs, Written E host ⟨t, b⟩ c.dbuf x.1 x.2) →
        ∃ xs, mapAll (view host) vs = some xs ∧ c.Msgs 1024 msgs (catText c.F xs) ∧
          ∀ out, c.Msgs 1024 msgs out → out = catText c.F xs) := by
  obtain ⟨mem', size, h1, h2, -, ⟨h24, hsz⟩, h3⟩ := C52_sent_partial ctx fuel head b pp wf h hl E obj buf mem hv hq hroom
  refine ⟨mem', size, h1, h2, fun hs => ⟨C33_roundtrip _ _ ⟨?_, ?_, ?_⟩ hm, ?_⟩⟩
  · rw [readBytes_length]; omega
  · rw [readBytes_length]; exact hs
  · have h8 := readBytes_drop_take mem' buf size 0 8 (by omega)
    simp only [List.drop_zero, Nat.add_zero] at h8
    rw [h8, readBytes_length]
    have := leBytes_ofLE (readBytes mem' buf 8)
    rw [readBytes_length] at this
    rw [← hsz]
    exact this.symm
  · intro m2 file hH m3 dst buffers k rounds g1 g2 g3 g4 g5
    obtain ⟨e1, e2⟩ := hH.bytes
    obtain ⟨m4, v, f1, f2, f3, f4⟩ := h3 m2 file size (Nat.le_refl _) e1 e2 m3 dst buffers k rounds g1 g2 g3 g4 g5
    obtain ⟨head', ctx', t', u1, u2, -, -, -, u3, u4⟩ := f4 n t ht
    refine ⟨m4, v, head', ctx', t', f1, f2, f3, u1, u2, ?_⟩
    intro c cE cp hc hw
    subst cE
    exact c.all hc host path ⟨t, b⟩ hh hwd hp ⟨by rw [cp]; exact u3, by rw [cp]; exact u4⟩ vs msgs hn hw

/-! ## Strings are not escaped -/
namespace C53

open Sample

def char8 : Ty := .int 1 .signless 1

/-- `struct { a: char8[:]; b: char8[:] }` -/
def hostS : Ty := .struct (.cons (nm "a") 0 (.vector char8 hostL2) (.cons (nm "b") 16 (.vector char8 hostL2) .nil)) 32 8

theorem hostS_ok : HostTy hostS where
  wf := by
    have h : VecLayout hostL2 1 1 := hostL2_ok
    refine ⟨⟨⟨by simp [char8, WF], h⟩, ⟨by simp [char8, WF], h⟩, trivial⟩, ?_⟩
    constructor <;> simp [Fields.toList, Ty.size, char8, hostL2, hostL, Disj, nm]
  sch := by simp [hostS, hostL2, hostL, Sch, SchFields, Fields.toList, char8, nm]
  small := by simp [hostS, Small, SmallFields]
  plain := by simp [hostS, Plain, PlainFields, char8, nm]
  noOut := by simp [hostS, Ty.noOut, Fields.noOut, char8]

theorem wordsR : Words hostR := by simp [hostR, hostQ, Words, WordsFields, WordsTerms, Word8, Sample.i32, u8]

def chars (s : List Char) : Val := .vec (s.map fun c => .int c.toNat)

def valS (a b : List Char) : Val := .struct [(nm "a", chars a), (nm "b", chars b)]

theorem fits_chars (s : List Char) (h : ∀ c ∈ s, c.toNat < 256) (hl : s.length < 2 ^ 63) :
    Fits (.vector char8 hostL2) (chars s) := by
  simp only [Fits, chars, char8]
  refine ⟨_, rfl, by simpa using hl, by simp [hostL2, hostL], ?_⟩
  intro x hx
  obtain ⟨c, hc, rfl⟩ := List.mem_map.1 hx
  have := h c hc
  exact ⟨_, rfl, by
    rw [InRange, if_neg (by decide)]
    exact ⟨by omega, by simpa using (show (c.toNat : Int) < 256 by omega)⟩⟩

theorem fitsS (a b : List Char) (ha : ∀ c ∈ a, c.toNat < 256) (hb : ∀ c ∈ b, c.toNat < 256) (la : a.length < 2 ^ 63)
    (lb : b.length < 2 ^ 63) : Fits hostS (valS a b) := by
  simp only [hostS, Fits, valS]
  exact ⟨_, rfl, _, _, rfl, fits_chars a ha la, _, _, rfl, fits_chars b hb lb, rfl⟩

def one : List Char := ['1']
def quoted : List Char := ['"', ',', '"', 'b', '"', ':', '"']

def seqS (s : List Char) : AVal := .seq true (s.map fun c => .int 1 .signless c.toNat)

def viewS (a b : List Char) : AVal := .struct [(nm "a", seqS a), (nm "b", seqS b)]

end C53

open C53 in
/-- `{ a = "1", b = "\",\"b\":\"" }` and `{ a = "1\",\"b\":\"", b = "" }` are printed alike, and as JSON that is neither of
them. -/
theorem C53_violated : HostTy hostS ∧ Words hostS ∧ Fits hostS (valS one quoted) ∧
    Fits hostS (valS (one ++ quoted) []) ∧ valS one quoted ≠ valS (one ++ quoted) [] ∧
    view hostS (valS one quoted) = some (viewS one quoted) ∧
    view hostS (valS (one ++ quoted) []) = some (viewS (one ++ quoted) []) ∧
    ∀ F, catText F [viewS one quoted] = catText F [viewS (one ++ quoted) []] ∧
      ¬ Text (catText F [viewS one quoted]) [jsonOf (viewS one quoted)] ∧
      ¬ Text (catText F [viewS one quoted]) [jsonOf (viewS (one ++ quoted) [])] := by
  refine ⟨hostS_ok, by simp [hostS, Words, WordsFields, char8, Word8], fitsS _ _ (by decide) (by decide) (by decide) (by decide),
    fitsS _ _ (by decide) (by decide) (by decide) (by decide),
    by decide, by rfl, by rfl, fun F => ?_⟩
  have h0 : catText F [viewS one quoted] = ['{', '"', 'a', '"', ':', '"', '1', '"', ',', '"', 'b', '"', ':', '"', '"', ',',
    '"', 'b', '"', ':', '"', '"', '}', '\n'] := by rfl
  have h1 : catText F [viewS (one ++ quoted) []] = ['{', '"', 'a', '"', ':', '"', '1', '"', ',', '"', 'b', '"', ':', '"', '"', ',',
    '"', 'b', '"', ':', '"', '"', '}', '\n'] := by rfl
  have ht : Text (catText F [viewS one quoted]) [.obj [(['a'], .str ['1']), (['b'], .str []), (['b'], .str [])]] := by
    rw [h0]
    exact ⟨10, by rfl⟩
  refine ⟨h0.trans h1.symm, fun h => ?_, fun h => ?_⟩
  · have := ht.unique h
    simp [jsonOf, jsonFields, jsonField, viewS] at this
  · have := ht.unique h
    simp [jsonOf, jsonFields, jsonField, viewS] at this

/-! ## Non-trivial cases -/

open Sample in
/-- The file of one message of C31's sample: what is printed is

    {"x":-2,"v":{"tag":2,"name":"q","data":{"n":4,"ys":[5,6,7]}}}

which is JSON. -/
example (F : Nat → Nat → List Char) : ∃ (c : Cat) (x : AVal) (msg : List UInt8), c.F = F ∧
    plan hostR pathR = some c.p ∧ c.OK ∧ Written c.E hostR c.p c.dbuf valR msg ∧ view hostR valR = some x ∧ Clean x ∧
    c.Msgs 1024 [msg] (catText F [x]) ∧ Text (catText F [x]) [jsonOf x] ∧
    String.ofList (catText F [x]) = "{\"x\":-2,\"v\":{\"tag\":2,\"name\":\"q\",\"data\":{\"n\":4,\"ys\":[5,6,7]}}}\n" := by
  obtain ⟨p, hp⟩ := C01_plan hostR pathR hostR_ok hostR_elems
  have hsz : (plan hostR pathR).map (fun p => (p.head.size, fin p.head valR 5005, anyFin p.head valR 7000)) =
      some (5, 5025, 7036) := by decide +kernel
  rw [hp] at hsz
  simp only [Option.map_some, Option.some.injEq, Prod.mk.injEq] at hsz
  have ht := anyTyR_plan
  rw [hp] at ht
  simp only [Option.map_some, Option.some.injEq] at ht
  have hl := anyR_pool
  match hpool : reflectProto anyCtx 5 (.nom anyKR) 0 with
  | none => rw [hpool] at hl; simp at hl
  | some pool =>
    rw [hpool] at hl
    simp only [Option.map_some, Option.some.injEq] at hl
    have hfin : fin p.head valR (5000 + p.head.size) = 5025 := by rw [hsz.1]; exact hsz.2.1
    obtain ⟨s, x, h1, h2, -⟩ := C31_any_partial envR hostR pathR p 1000 5000 (fun _ => 0) valR hostR_ok
      C53.wordsR hp readR
      (by rw [hfin]; decide)
    have hw : Written envR hostR p 7000 valR (readBytes s.mem 5000 (s.ptr - 5000)) :=
      ⟨⟨memR, fun _ => 0, 1000, 5000, s, readR, by rw [hfin]; decide, h1, rfl⟩, by rw [hsz.2.2]; decide⟩
    have hc : Cat.OK ⟨envR, F, 77, pool, p, 6000, 7000⟩ :=
      ⟨⟨anyCtx, .nom anyKR, 5, 5, anyCtx_wf, by rw [ht]; exact anyTyR_tree, hpool⟩, by simp only [hl]; decide,
        show 77 < 2 ^ 64 by decide, show 7000 + 1024 < W64 by decide,
        show Disj 6000 anySize 7000 1024 by right; right; left; decide⟩
    obtain ⟨xs, g1, g2, -⟩ := C53_messages_partial ⟨envR, F, 77, pool, p, 6000, 7000⟩ hc hostR pathR hostR_ok
      C53.wordsR hp [valR]
      [readBytes s.mem 5000 (s.ptr - 5000)] (by simp) (by simpa using hw)
    have hx := anyR_view
    rw [hx] at h2
    cases h2
    simp only [mapAll, hx, Option.some.injEq] at g1
    subst g1
    have hcl : ∀ y ∈ [AVal.struct [(nm "x", .int 4 .signed (-2)),
        (nm "v", .variant false 2 (nm "q") (.struct [(nm "n", .int 1 .unsigned 4),
          (nm "ys", .seq false [.int 1 .unsigned 5, .int 1 .unsigned 6, .int 1 .unsigned 7])]))]], Clean y := by
      simp [Clean, CleanFields, CleanField, CleanElems, nm, plainChar]
    exact ⟨⟨envR, F, 77, pool, p, 6000, 7000⟩, _, _, rfl, hp, hc, hw, hx, hcl _ (by simp), g2,
      C53_json_partial F _ hcl, by rfl⟩

namespace C53

def hostI : Ty := .int 4 .signed 4

/-- The integers `-2` and `7` at 1000 and 1004. -/
def memI : Mem := fun a => if a = 1000 then 0xfe else if 1000 < a ∧ a < 1004 then 0xff else if a = 1004 then 7 else 0

theorem hostI_plan : plan hostI [] = some ⟨.int 4 .signed 1, 0⟩ := by decide +kernel

theorem hostI_ok : HostTy hostI where
  wf := by simp [hostI, WF]
  sch := by simp [hostI, Sch]
  small := by simp [hostI, Small]
  plain := by simp [hostI, Plain]
  noOut := by simp [hostI, Ty.noOut]

theorem writtenI (E : Env) (obj : Nat) (v : Int) (hv : readVal memI hostI obj = some (.int v)) :
    ∃ msg, msg.length = 4 ∧ Written E hostI ⟨.int 4 .signed 1, 0⟩ 7000 (.int v) msg := by
  have hq : fin (.int 4 .signed 1) (.int v) (5000 + Ty.size (.int 4 .signed 1)) = 5004 := by simp [fin, Ty.size]
  have ha : anyFin (.int 4 .signed 1) (.int v) 7000 = 7004 := by simp [anyFin, reflectable, fin, Ty.size, Ty.align, alignUp]
  obtain ⟨s, e, p, -⟩ := C01_round_trip_partial { E with S := memI } hostI [] _ obj 5000 (fun _ => 0) (.int v)
    hostI_ok hostI_plan hv (by rw [hq]; decide)
  exact ⟨readBytes s.mem 5000 (s.ptr - 5000), by rw [readBytes_length, p, hq],
    ⟨⟨memI, _, obj, 5000, s, hv, by rw [hq]; decide, e, rfl⟩, by rw [ha]; decide⟩⟩

end C53

open C53 C52 in
/-- A file of two integers, with the object of C52's second sample: `pjcat` prints them on two lines. -/
example (F : Nat → Nat → List Char) : ∃ mem' msgs c, Refl.encodeProtoAt (env bytesI) 1000 5000 (fun _ => 0) = some mem' ∧
    msgs.length = 2 ∧
    readFile (writeFile (readBytes mem' 5000 158) msgs) = (some (readBytes mem' 5000 158), msgs, .complete) ∧
    c.F = F ∧ Cat.Msgs c 1024 msgs ['-', '2', '\n', '7', '\n'] := by
  have hr : reflectProto (fun _ => none) 1 (.int 4 .signed 1) 0 = some sentI := by rfl
  have hwf : WFRef (fun _ => none) (.int 4 .signed 1) := .mk _ trivial (by simp [kids])
  have hsz : Refl.host.size = 32 := by decide +kernel
  have hpz : Refl.proto.head.size = 32 := by decide +kernel
  have hfin : fin Refl.host (Refl.objOf sentI) 10000 = 10120 := by decide +kernel
  have hco : cost true (memOf bytesI) Refl.proto.head Refl.host [] 1000 = some 102 := by decide +kernel
  have hgs : Refl.getProtoSize (memOf bytesI) 1000 = some 158 := by decide +kernel
  obtain ⟨msg1, l1, w1⟩ := writtenI (env bytesI) 1000 (-2) (by decide +kernel)
  obtain ⟨msg2, l2, w2⟩ := writtenI (env bytesI) 1004 7 (by decide +kernel)
  obtain ⟨mem', size, h1, h2, h3⟩ := C53_file_partial (fun _ => none) 1 (.int 4 .signed 1) 0 sentI hwf hr (by decide)
    (env bytesI) 1000 5000 (fun _ => 0) (by decide +kernel) (by decide +kernel)
    (fun k hk => by cases hco.symm.trans hk; rw [hpz]; decide) hostI [] 1 (.int 4 .signed 1) hostI_ok
    (by simp [hostI, Words, Word8]) hostI_plan rfl [.int (-2), .int 7]
    [msg1, msg2] rfl (by
      intro m hm
      simp only [List.mem_cons, List.not_mem_nil, or_false] at hm
      rcases hm with rfl | rfl <;> omega)
  cases h2.symm.trans hgs
  obtain ⟨g1, g2⟩ := h3 (by decide)
  have hW : W64 = 2 ^ 64 := rfl
  obtain ⟨m4, v, head', ctx', t', f1, f2, f3, f4, f5, f6⟩ := g2 mem' 5000
    ⟨by rw [readBytes_length]; decide, fun i hi => by
      rw [readBytes_length] at hi
      have := readBytes_getElem? mem' 5000 158 i hi
      rw [List.getElem?_eq_getElem (by rw [readBytes_length]; exact hi)] at this
      exact (Option.some.inj this).symm⟩ (fun _ => 0) 9000 (fun _ => 10000) 0 1 (by rw [hsz]; decide)
    (by decide) (by rw [hfin]; decide) (fun j hj => by
      cases Nat.le_zero.1 hj
      rw [hfin, hsz]
      exact ⟨by decide, by unfold Disj; omega, by decide, by decide⟩) (by decide)
  have hu : ∃ cx, unreflectProto sentI.types.length sentI = some (.int 4 .signed 1, 0, cx) := ⟨_, rfl⟩
  obtain ⟨cx, hu⟩ := hu
  cases hu.symm.trans f4
  cases f5
  have hcat := f6 ⟨env bytesI, F, 77, sentI, ⟨.int 4 .signed 1, 0⟩, 6000, 7000⟩ rfl rfl
    ⟨⟨fun _ => none, .int 4 .signed 1, 1, 1, hwf, rfl, hr⟩, show 1 < 2 ^ 31 by decide, show 77 < 2 ^ 64 by decide,
      show 7000 + 1024 < W64 by decide, show Disj 6000 anySize 7000 1024 by right; right; left; decide⟩ (by
      intro x hx
      simp only [List.zip_cons_cons, List.zip_nil_left, List.mem_cons, List.not_mem_nil, or_false] at hx
      rcases hx with rfl | rfl
      · exact w1
      · exact w2)
  obtain ⟨xs, k1, k2, -⟩ := hcat
  cases k1
  exact ⟨mem', _, ⟨env bytesI, F, 77, sentI, ⟨.int 4 .signed 1, 0⟩, 6000, 7000⟩, h1, rfl, g1, rfl, k2⟩

open C53 in
/-- Two lists of integers whose digits are the same. -/
example (F : Nat → Nat → List Char) : catText F [.int 4 .signed 1, .int 4 .signed 23] ≠
    catText F [.int 4 .signed 12, .int 4 .signed 3] := fun h => by
  have := C53_injective_partial F hostI hostI_ok.wf [.int 1, .int 23] [.int 12, .int 3] _ _ rfl rfl
    (by simp [Clean]) (by simp [Clean]) h
  simp at this

end PJ
