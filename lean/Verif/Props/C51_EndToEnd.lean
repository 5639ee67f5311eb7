import Verif.Lemmas.Forget
import Verif.Props.C50_Portals
/-!
# C51: objects sent from one generated class to another

Everything together: two schema files, classes generated for a portal of each, the protocol planned on the side of the
sender and transported to the receiver.  What the sender's encoder writes, the receiver's decoder reads: the C++ object
of the receiver has the value of the sender's object, converted to the receiver's version of the type, and the handler
for the term it holds is called.

`_partial`: the full claim is for every accepted pair of files.  It is false of types with the known defects (`Safe`;
`C51_violated`), of receivers that the sender's type does not fit (`Evolves`: `C43_violated`), and of handlers for several
variants (`C08_violated_two`).
-/
namespace PJ

theorem handlerMap_of : ∀ hs : Handlers, (∀ h ∈ hs, h.1 ≠ []) → handlerMap hs ≠ none
  | [], _ => by simp [handlerMap]
  | ([], _) :: _, h => absurd rfl (h _ List.mem_cons_self)
  | (c :: p, i) :: r, h => by
    have := handlerMap_of r fun x hx => h x (List.mem_cons_of_mem _ hx)
    simp only [handlerMap, ne_eq, Option.map_eq_none_iff]
    exact this

mutual
/-- Handler paths that the compiler accepts can be used. -/
theorem HsOK_led : ∀ (t : Ty) (hs : Handlers), (∀ h ∈ hs, ∃ q c, h.1 = q ++ [c] ∧ LeadsTo q t) → HsOK t hs
  | .struct fs sz al, hs, h => by
    simp only [HsOK]
    refine HsOKF_led fs hs fun x hx => ?_
    obtain ⟨q, c, h1, h2⟩ := h x hx
    cases q with
    | nil => exact absurd h2 (by simp [LeadsTo])
    | cons a q => exact ⟨a, q, c, h1, h2⟩
  | .variant ts l, hs, h => by
    simp only [HsOK]
    refine handlerMap_of hs fun x hx => ?_
    obtain ⟨q, c, h1, _⟩ := h x hx
    rw [h1]
    simp
  | .int _ _ _, _, _ => by simp [HsOK]
  | .float _ _, _, _ => by simp [HsOK]
  | .unit, _, _ => by simp [HsOK]
  | .array _ _ _ _, _, _ => by simp [HsOK]
  | .vector _ _, _, _ => by simp [HsOK]
theorem HsOKF_led : ∀ (fs : Fields) (hs : Handlers),
    (∀ h ∈ hs, ∃ a q c, h.1 = a :: q ++ [c] ∧ ∀ x ∈ fs.toList, x.1 = a → LeadsTo q x.2.2) → HsOKF fs hs
  | .nil, _, _ => by simp [HsOKF]
  | .cons c o t r, hs, h => by
    simp only [HsOKF]
    constructor
    · refine HsOK_led t _ fun x hx => ?_
      simp only [Handlers.into, List.mem_map, List.mem_filter] at hx
      obtain ⟨y, ⟨hy, hs⟩, rfl⟩ := hx
      obtain ⟨a, q, d, h1, h2⟩ := h y hy
      rw [h1] at hs ⊢
      have ha : a = c := by simpa [Path.startsWith] using hs
      subst ha
      exact ⟨q, d, by rw [List.cons_append, into_cons_self], h2 (a, o, t) (by simp [Fields.toList]) rfl⟩
    · refine HsOKF_led r hs fun x hx => ?_
      obtain ⟨a, q, d, h1, h2⟩ := h x hx
      exact ⟨a, q, d, h1, fun y hy => h2 y (by simp [Fields.toList, hy])⟩
end

/-- Decoding with handlers: a message of value `v` is decoded into an object that has the converted value. -/
theorem decode_value (E : Env) (p : Proto) (host : Ty) (hs : Handlers) (msg obj buf cap : Nat) (mem : Mem) (v w : Val)
    (hp : WF p.head) (hh : WF host) (hn : host.noOut) (hc : Compat host p.head) (hhs : HsOK host hs)
    (hv : readVal E.S p.head msg = some v) (hw : conv E.fconv host v = some w) (hcap : cap < 2 ^ 63)
    (hfit : fin host v buf ≤ buf + cap) (hb : buf + cap < W64) (ho : obj + host.size < W64)
    (hd : Disj obj host.size buf cap) :
    ∃ d, decode E p host hs msg obj buf cap mem = some d ∧ readVal d.mem host obj = some w := by
  have hbd := xcode_bounded E host p.head hs msg obj
    { mem := mem, ptr := buf, rem := some cap, cb := 0, used := 0 } v w cap hh hp hc
    (noOut_outAt _ _ _ hn) hhs hv hw rfl hcap (by simp only; omega) (by simp only; omega)
  simp only at hbd
  rcases hbd with ⟨hle, s, hs', hrem⟩ | ⟨hlt, s, hs'⟩
  · have hge := fin_ge host v buf hh
    have hran := xcode_ran E host p.head hs msg obj
      { mem := mem, ptr := buf, rem := some cap, cb := 0, used := 0 } s v w hh hp hc
      (noOut_outAt _ _ _ hn) hhs hv hw (by simp only; omega) ho
      (by simp only; unfold Disj at *; omega) hs'
    exact ⟨_, by unfold decode; rw [hs'], hran.val⟩
  · omega

/-- A sender and a receiver with objects of generated classes (`Serves`: `C50_portal`, `C50_precompiled`).  The sender's
protocol is planned from the type `k`; the receiver's is the same, or has been transported.  The sender's object has the
value `v` and holds the term that the encoder was made for.  Then the encoder returns, each sizer for the type says how
long the message is, and each decoder of the receiver whose type can take the sender's makes an object with the
converted value from a copy of the message; if its handlers are for one variant, it calls the one for the term there. -/
theorem C51_end_to_end_partial
    (fs : FileSys) (asSpec : Bool) (f : Nat) (sc : Scope) (h : elabRoot fs asSpec f = .ok sc)
    (fs' : FileSys) (asSpec' : Bool) (f' : Nat) (sc' : Scope) (h' : elabRoot fs' asSpec' f' = .ok sc')
    (t : PTy) (k : STy) (path : Path) (p p' : Proto) (hk : t.sty = some k) (hp : plan (describe k) path = some p)
    (hp' : p'.forget = p.forget) (q q' : Portal) (n' : SourceId)
    (hq' : (n', q') ∈ sc'.portals) {size enc dec size' enc' dec'} (hs : Serves sc p q size enc dec)
    (hs' : Serves sc' p' q' size' enc' dec') (hsafe : Safe k) (hsmall : Small (describe k))
    (x : EncoderOut) (hx : x ∈ q.encoders) (hxt : (x.src, t) ∈ sc.defs)
    (E : Env) (obj buf : Nat) (mem : Mem) (v : Val) (hv : cppVal E.S k obj = some v) (hh : Holds x.path v)
    (hw : fin p.head v (buf + p.head.size) < W64) :
    ∃ s depth, (∀ fuel, depth ≤ fuel → enc fuel x.name x.src E obj buf mem = .ok s) ∧
      s.ptr = fin p.head v (buf + p.head.size) ∧ (∀ a, ¬ (buf ≤ a ∧ a < s.ptr) → s.mem a = mem a) ∧
      (∀ z ∈ q.sizers, z.src = x.src → Holds z.path v → ∃ m depth, s.ptr - buf ≤ m ∧ (z.roundUp = false → m = s.ptr - buf) ∧
        ∀ fuel, depth ≤ fuel → size fuel z.name z.src E.S obj = some (m % W64)) ∧
      ∀ y ∈ q'.decoders, ∀ u k', (y.dst, u) ∈ sc'.defs → u.sty = some k' → Safe k' → Small (describe k') →
        Evolves (describe k') (describe k) →
      ∃ w, conv E.fconv (describe k') v = some w ∧
      ∀ (m2 : Mem) (buf2 : Nat), buf2 + (s.ptr - buf) < W64 →
        (∀ i, i < s.ptr - buf → m2 (buf2 + i) = s.mem (buf + i)) →
      ∀ (mem3 : Mem) (dst dbuf cap : Nat), dst + (cpp k').1 < W64 → cap < 2 ^ 63 → dbuf + cap < W64 →
        Disj dst (cpp k').1 dbuf cap → fin (describe k') v dbuf ≤ dbuf + cap →
      ∃ d depth, (∀ fuel, depth ≤ fuel → dec' fuel y.name y.dst { E with S := m2 } buf2 dst dbuf cap mem3 = some d) ∧
        cppVal d.mem k' dst = some w ∧
        ∀ P, LeadsTo P (describe k') → NotEnumAt P (describe k') → (∀ r ∈ y.handlers, ∃ c, r = P ++ [c]) →
          ∀ c z, valAt P w = some (.variant c z) → d.called = y.handlers.zipIdx.lookup (P ++ [c]) := by
  have hi := ScopeInv.init.run (elabRoot_run h)
  have hi' := ScopeInv.init.run (elabRoot_run h')
  have hacc := C48_types fs asSpec f sc h _ hxt k hk
  have hhost := C45_host_partial k hacc hsafe hsmall
  have hrv : readVal E.S (describe k) obj = some v := by rw [C45_value_partial k _ _ hacc hsafe]; exact hv
  obtain ⟨hok, hb, _, hrel, hfit⟩ := plan_ok _ path p hhost.sch hhost.small hhost.plain hhost.noOut hp
  obtain ⟨s, h1, h2, h3, h4⟩ := C03_value_partial E _ path p obj buf mem v hhost hp hrv hw
  have hge := fin_ge p.head v (buf + p.head.size) hok.wf
  have hcopy := fun m2 buf2 (g1 : buf2 + (s.ptr - buf) < W64) g2 =>
    ((C02_copies_partial E _ p obj buf mem s v v hok hhost.wf (rel_compat _ p.head hrel hhost.plain hhost.wf hok.wf).2 hrv
      (conv_fits E.fconv p.head v hok.wf (hfit v (readVal_fits E.S _ obj v hhost.plain hrv))) (by rw [hb]; exact hw) h1).2
      m2 buf2 g1 g2)
  obtain ⟨u, k1, e1, e2, depth, e3⟩ := hs.encoders x hx
  cases nodup_fst_eq hi.nodup e1 hxt
  cases hk.symm.trans e2
  refine ⟨s, depth, fun fuel hf => ?_, h2, h4, ?_, ?_⟩
  · rw [e3 fuel hf, C40_known_term_partial E _ p x.path obj buf mem v hhost.wf hrv hh
      (plain_pathNames _ _ hhost.plain)]
    exact h1
  · intro z hz hzs hzh
    obtain ⟨u, k2, e4, e5, depth, e6⟩ := hs.sizers z hz
    rw [hzs] at e4
    cases nodup_fst_eq hi.nodup e4 hxt
    cases hk.symm.trans e5
    have hsz := fun ru => C40_size_partial ru E.S _ p z.path obj v hhost.wf hrv hzh (plain_pathNames _ _ hhost.plain)
    cases hru : z.roundUp with
    | false =>
      refine ⟨s.ptr - buf, depth, Nat.le_refl _, fun _ => rfl, fun fuel hf => ?_⟩
      rw [e6 fuel hf, hru, hsz, h3, Nat.mod_eq_of_lt (by omega)]
    | true =>
      obtain ⟨s', m, g1, _, g3, g4, _⟩ := C04_planned_partial E _ path p obj buf mem v hhost hp hrv hw
      cases g1.symm.trans h1
      refine ⟨m + p.head.size, depth, by omega, fun h => by simp at h, fun fuel hf => ?_⟩
      rw [e6 fuel hf, hru, hsz, g3]
  · intro y hy u k' hu hk' hsafe' hsmall' hev
    have hacc' := C48_types fs' asSpec' f' sc' h' _ hu k' hk'
    have hhost' := C45_host_partial k' hacc' hsafe' hsmall'
    have hle := describe_size_le k' hacc' hsafe'
    have hc := evolves_compat _ _ p.head hev hrel hhost'.plain hhost'.noOut hhost'.wf hhost.plain hok.wf
    obtain ⟨w, hw1, hw2⟩ := evolves_conv E.fconv _ _ v hev hhost'.plain hhost'.wf hhost.plain
      (readVal_fits E.S _ obj v hhost.plain hrv)
    refine ⟨w, hw1, fun m2 buf2 g1 g2 mem3 dst dbuf cap g3 g4 g5 g6 g7 => ?_⟩
    obtain ⟨u2, k2, e4, e5, depth, e6⟩ := hs'.decoders y hy
    cases nodup_fst_eq hi'.nodup e4 hu
    cases hk'.symm.trans e5
    have hrd := hcopy m2 buf2 g1 g2
    have hhs : HsOK (describe k') y.handlers.zipIdx := by
      refine HsOK_led _ _ fun r hr => ?_
      obtain ⟨t', ht', hl⟩ := C48_handlers fs' asSpec' f' sc' h' _ hq' y hy
      cases nodup_fst_eq hi'.nodup ht' hu
      obtain ⟨r1, r2⟩ := r
      exact hl k' hk' r1 (List.fst_mem_of_mem_zipIdx hr)
    have hdec : ∀ msg dst dbuf cap mem3, decode { E with S := m2 } p' (describe k') y.handlers.zipIdx msg dst dbuf cap mem3 =
        decode { E with S := m2 } p (describe k') y.handlers.zipIdx msg dst dbuf cap mem3 := by
      intro msg dst dbuf cap mem3
      rw [← decode_forget, hp', decode_forget]
    obtain ⟨d, d1, d2⟩ := decode_value { E with S := m2 } p (describe k') y.handlers.zipIdx buf2 dst dbuf cap mem3 v w
      hok.wf hhost'.wf hhost'.noOut hc hhs hrd hw1 g4 g7 g5 (by omega) (by unfold Disj at *; omega)
    refine ⟨d, depth, fun fuel hf => by rw [e6 fuel hf, hdec, d1], by rw [← C45_value_partial k' _ _ hacc' hsafe']; exact d2, ?_⟩
    intro P hP hE hH c z hz
    exact (C08_handler_partial { E with S := m2 } p (describe k') P y.handlers.zipIdx buf2 dst dbuf cap mem3 v w d hok.wf
      hhost'.wf hhost'.noOut hc hP hE (fun r hr => hH r.1 (List.fst_mem_of_mem_zipIdx (x := r) hr)) hrd hw1 g4 g7 g5
      (by omega) (by unfold Disj at *; omega) d1).2 c z hz

/-! ## Instance -/
namespace C51

/-- The receiver of the sample has other versions of the types: a wider field and a new one, a new term, other tags. -/
def recv : FileSys := C48_one "space far{struct A{n:int16;}variant Choice{c:uint8;a:A;b:uint8[:];}
struct Msg{v:Choice;w:uint8;id:uint64;}specification S:Msg;portal R:S{decoder get:Msg{handlers[v.b,v.a];};}}"

def recvA : PTy := .struct (sid ["far", "A"]) (.cons "n".toList (.int 2 .signed) .nil)
def recvChoice : PTy :=
  .variant (sid ["far", "Choice"]) (.cons "a".toList 2 recvA (.cons "b".toList 3
    (.vector (.int 1 .unsigned) 0 none) (.cons "c".toList 1 (.int 1 .unsigned) (.cons "undef".toList 0 .unit .nil)))) 3
def recvMsg : PTy := .struct (sid ["far", "Msg"]) (.cons "v".toList recvChoice (.cons "w".toList (.int 1 .unsigned)
  (.cons "id".toList (.int 8 .unsigned) .nil)))

def recvPortal : Portal :=
  ⟨[], [], [⟨"get".toList, sid ["far", "Msg"], [["v".toList, "b".toList], ["v".toList, "a".toList]]⟩], sid ["far", "S"]⟩

theorem recv_gen : ∃ sc s, elabRoot recv false 0 = .ok sc ∧ genFile [] sc 0 = some s ∧
    sid ["far", "R"] ∈ (sc.files 0).portals.map (·.1) ∧ (sid ["far", "R"], recvPortal) ∈ sc.portals ∧
    (sid ["far", "Msg"], recvMsg) ∈ sc.defs := by
  obtain ⟨sc, s, h1, h2, h3⟩ := Out.testGen_ok (o := elabRoot recv false 0) (P := fun sc s =>
    decide (sid ["far", "R"] ∈ (sc.files 0).portals.map (·.1)) && decide ((sid ["far", "R"], recvPortal) ∈ sc.portals) &&
    decide ((sid ["far", "Msg"], recvMsg) ∈ sc.defs)) (by decide +kernel)
  simp only [Bool.and_eq_true, decide_eq_true_eq, and_assoc] at h3
  exact ⟨sc, s, h1, h2, h3⟩

def sendTy : STy :=
  .struct (.cons "id".toList (.int 4 .unsigned) (.cons "v".toList (.variant (.cons "a".toList 1 (.struct (.cons "n".toList
    (.int 1 .unsigned) .nil)) (.cons "b".toList 7 (.vector (.int 1 .unsigned) 0 none) (.cons "undef".toList 0 .unit
    .nil))) 2) .nil))

def recvTy : STy :=
  .struct (.cons "v".toList (.variant (.cons "a".toList 2 (.struct (.cons "n".toList (.int 2 .signed) .nil)) (.cons "b".toList 3
    (.vector (.int 1 .unsigned) 0 none) (.cons "c".toList 1 (.int 1 .unsigned) (.cons "undef".toList 0 .unit
    .nil)))) 3) (.cons "w".toList (.int 1 .unsigned) (.cons "id".toList (.int 8 .unsigned) .nil)))

/-- `{ id = 9, v = a { n = 4 } }` at 1000. -/
def mem : Mem := fun a => if a = 1000 then 9 else if a = 1008 then 4 else if a = 1024 then 1 else 0

def env : Env := { S := mem, J := fun _ => 0xcc, fconv := fun _ _ b => b }

def val : Val := .struct [("id".toList, .int 9), ("v".toList, .variant "a".toList (.struct [("n".toList, .int 4)]))]
def val' : Val :=
  .struct [("v".toList, .variant "a".toList (.struct [("n".toList, .int 4)])), ("w".toList, .int 0), ("id".toList, .int 9)]

theorem val_eq : cppVal mem sendTy 1000 = some val := by with_unfolding_all rfl
theorem val_conv : conv env.fconv (describe recvTy) val = some val' := by with_unfolding_all rfl

theorem sendTy_safe : Safe sendTy := by
  simp only [sendTy, Safe, SafeFields, SafeTerms, STerms.decls]
  decide
theorem sendTy_small : Small (describe sendTy) := by
  simp [sendTy, describe, describeFields, describeTerms, Small, SmallFields, rounds, Terms.toList, eligible, eligibleFields,
    spanL]
theorem recvTy_safe : Safe recvTy := by
  simp only [recvTy, Safe, SafeFields, SafeTerms, STerms.decls]
  decide
theorem recvTy_small : Small (describe recvTy) := by
  simp [recvTy, describe, describeFields, describeTerms, Small, SmallFields, rounds, Terms.toList, eligible, eligibleFields,
    spanL]
theorem evolves : Evolves (describe recvTy) (describe sendTy) := by
  simp [sendTy, recvTy, describe, describeFields, describeTerms, Evolves, EvolvesFields, EvolvesNamed, EvolvesAt,
    Fields.toList, Terms.toList, Terms.hasName, spanL, Ty.bytes]

end C51

open C51 in
/-- An object of the sample's class sends, an object of the receiver's class, made with the transported protocol, gets
the value with the new field and calls the second handler. -/
example (base : FnKey → FnName) : ∃ sc s c p o sc' s' c' o', elabRoot C48_sample false 0 = .ok sc ∧
    genFile [] sc 0 = some s ∧ c ∈ s.portals ∧ c.planned sc.hostTy = some p ∧ Constructed base sc.hostTy c p o ∧
    elabRoot recv false 0 = .ok sc' ∧ genFile [] sc' 0 = some s' ∧ c' ∈ s'.portals ∧
    Constructed base sc'.hostTy c' p.forget o' ∧
    ∃ r d fuel, o.encode c fuel "enc".toList (sid ["app", "Msg"]) env 1000 5000 (fun _ => 0) = .ok r ∧
      o'.decode c' fuel "get".toList (sid ["far", "Msg"]) { env with S := r.mem } 5000 7000 8000 100 (fun _ => 0xff) =
        some d ∧ cppVal d.mem recvTy 7000 = some val' ∧ d.called = some 1 := by
  obtain ⟨sc, s, h1, h2, a1, a2, -, a4, -, -, -, -, -, -, a11, -⟩ := C50_sample_gen
  obtain ⟨sc0, hc0, hd, -⟩ := C48_sample_ok
  cases h1.symm.trans hc0
  obtain ⟨sc', s', h1', h2', b1, b2, b3⟩ := recv_gen
  have hmsg : (sid ["app", "Msg"], C48_sample_msg) ∈ sc.defs := by rw [hd]; simp
  have hk : C48_sample_msg.sty = some sendTy := by rfl
  have hk' : recvMsg.sty = some recvTy := by rfl
  obtain ⟨p, hp⟩ := C45_plan_partial sendTy ["v".toList, "_".toList] (C48_types _ _ _ _ h1 _ hmsg _ hk) sendTy_safe sendTy_small
  obtain ⟨c, c1, c2, c3, ⟨t, path, e1, e2⟩, c4⟩ := C50_constructs_partial _ _ _ sc h1 [] 0 s h2 _ a1 _ a2
    ⟨by decide, by decide, by decide⟩ (by
      intro x hx u hu
      have : x = sid ["app", "Msg"] := by
        revert hx; simp [C50_sample_portal]
      subst this
      rw [nodup_fst_eq (C48_nominal _ _ _ sc h1).1 hu hmsg]
      exact ⟨fun w sg => by simp [C48_sample_msg], by decide⟩)
  obtain ⟨c', c1', c2', c3', -, c4'⟩ := C50_constructs_partial _ _ _ sc' h1' [] 0 s' h2' _ b1 _ b2
    ⟨by decide, by decide, by decide⟩ (by
      intro x hx u hu
      have : x = sid ["far", "Msg"] := by
        revert hx; simp [recvPortal]
      subst this
      rw [nodup_fst_eq (C48_nominal _ _ _ sc' h1').1 hu b3]
      exact ⟨fun w sg => by simp [recvMsg], by decide⟩)
  cases nodup_fst_eq (ScopeInv.init.run (elabRoot_run h1)).specsNodup e1 a11
  rw [hk, Option.bind_some, hp] at e2
  have hsz : (plan (describe sendTy) ["v".toList, "_".toList]).map (fun p =>
      decide (fin p.head val (5000 + p.head.size) < 6000) &&
      match (portalAdds (fun n => n) recvPortal).mapM (AddCall.fn (fun _ => some (describe recvTy)) p.forget) with
      | some fns => decide (todoWeight (fns.map fun f => f.2.entry f.1) < 2 ^ 31)
      | none => false) = some true := by decide +kernel
  rw [hp] at hsz
  simp only [Option.map_some, Option.some.injEq, Bool.and_eq_true, decide_eq_true_eq] at hsz
  obtain ⟨hsz, hfew⟩ := hsz
  have hw : (6000 : Nat) < W64 := by decide
  obtain ⟨o, o1, o2⟩ := c4 base p fun fns hf => by
    have := a4 c c1
    rw [e2] at this
    simp only [fewFns, hf, decide_eq_true_eq] at this
    exact this
  obtain ⟨o', o1', o2'⟩ := c4' base p.forget fun fns hf => by
    have hD : sc'.hostTy (sid ["far", "Msg"]) = some (describe recvTy) := by
      rw [hostTy_of (C48_nominal _ _ _ sc' h1').1 b3 (fun w sg => by simp [recvMsg]), hk', Option.map_some]
    simp only [portalAdds, recvPortal, List.map_nil, List.map_cons, List.nil_append, List.mapM_cons, List.mapM_nil,
      AddCall.fn, hD, Option.map_some] at hf hfew
    rw [hf] at hfew
    exact of_decide_eq_true hfew
  obtain ⟨r, depth, r1, r0, -, -, r2⟩ := C51_end_to_end_partial _ _ _ sc h1 _ _ _ sc' h1' C48_sample_msg sendTy _ p p.forget hk hp
    (by rw [Proto.forget_forget]) C50_sample_portal recvPortal _ b2 o2 o2' sendTy_safe sendTy_small
    ⟨"enc".toList, sid ["app", "Msg"], ["v".toList, "a".toList]⟩ (by simp [C50_sample_portal]) hmsg env 1000 5000
    (fun _ => 0) val val_eq (by simp [Holds, val, List.lookup]) (by omega)
  obtain ⟨w, w1, w2⟩ := r2 ⟨"get".toList, sid ["far", "Msg"], [["v".toList, "b".toList], ["v".toList, "a".toList]]⟩
    (by simp [recvPortal]) recvMsg recvTy b3 hk' recvTy_safe recvTy_small evolves
  cases val_conv.symm.trans w1
  obtain ⟨d, depth', d1, d2, d3⟩ := w2 r.mem 5000 (by omega) (fun _ _ => rfl) (fun _ => 0xff) 7000 8000 100
    (by decide +kernel) (by decide) (by decide) (Or.inr (Or.inr (Or.inl (by decide +kernel)))) (by decide +kernel)
  refine ⟨sc, s, c, p, o, sc', s', c', o', h1, h2, c1, e2, o1, h1', h2', c1', o1', r, d, max depth depth',
    r1 _ (Nat.le_max_left ..), d1 _ (Nat.le_max_right ..), d2, ?_⟩
  rw [d3 ["v".toList] 
    (by simp [recvTy, describe, describeFields, LeadsTo, Fields.toList])
    (by simp [recvTy, describe, describeFields, describeTerms, NotEnumAt, Fields.find, Terms.isEnum, Terms.toList, Ty.size])
    (by simp) "a".toList (.struct [("n".toList, .int 4)]) (by rfl)]
  decide

/-- The bytes of `{1, 256}` at 10. -/
def C51.wide : Mem := fun a => if a = 10 ∨ a = 15 then 1 else 0

def C51.envWide : Env := { S := wide, J := fun _ => 0, fconv := fun _ _ b => b }

open C45 (ints) in
open C51 (wide envWide) in
/-- Violation, from the text of a schema to C++ objects: the object has `{1, 256}`, the class encodes it, decodes the message
into another object of the same type, and that one has `{1, 0}`. -/
theorem C51_violated : ∃ (fs : FileSys) (sc : Scope) (s : SrcGen) (c : PortalClass) (p : Proto) (k : STy),
    elabRoot fs false 0 = .ok sc ∧ genFile [] sc 0 = some s ∧ c ∈ s.portals ∧ c.Compiles ∧
    c.planned sc.hostTy = some p ∧ (sid ["M"], PTy.struct (sid ["M"]) (.cons ['a'] (.array (.int 4 .signed) 2) .nil)) ∈ sc.defs ∧
    k = .struct (.cons ['a'] ints .nil) ∧
    cppVal wide k 10 = some (.struct [(['a'], .arr [.int 1, .int 256])]) ∧
    ∀ base o, Constructed base sc.hostTy c p o → ∃ r d fuel,
      o.encode c fuel "enc".toList (sid ["M"]) envWide 10 100 (fun _ => 0) = .ok r ∧
      o.decode c fuel "dec".toList (sid ["M"]) { envWide with S := r.mem } 100 200 300 8 (fun _ => 0x55) = some d ∧
      cppVal d.mem k 200 = some (.struct [(['a'], .arr [.int 1, .int 0])]) := by
  obtain ⟨sc, s, h1, h2, h3⟩ := Out.testGen_ok (o := elabRoot (C48_one "struct M{a:int32[2];}specification S:M;
portal P:S{encoder enc:M;decoder dec:M;}") false 0) (P := fun sc s =>
    decide ((sid ["M"], PTy.struct (sid ["M"]) (.cons ['a'] (.array (.int 4 .signed) 2) .nil)) ∈ sc.defs) &&
    decide (sid ["P"] ∈ (sc.files 0).portals.map (·.1)) &&
    decide ((sid ["P"], (⟨[], [⟨"enc".toList, sid ["M"], []⟩], [⟨"dec".toList, sid ["M"], []⟩], sid ["S"]⟩ : Portal)) ∈ sc.portals) &&
    decide (∀ c ∈ s.portals, c.Compiles) &&
    decide ((sid ["S"], PTy.struct (sid ["M"]) (.cons ['a'] (.array (.int 4 .signed) 2) .nil), []) ∈ sc.specs))
    (by decide +kernel)
  simp only [Bool.and_eq_true, decide_eq_true_eq, and_assoc] at h3
  obtain ⟨a1, a2, a3, a4, a5⟩ := h3
  obtain ⟨c, c1, c2, ⟨t, path, e1, e2⟩, c3⟩ := C50_portal _ _ _ sc h1 [] 0 s h2 _ a2 _ a3
  cases nodup_fst_eq (ScopeInv.init.run (elabRoot_run h1)).specsNodup e1 a5
  have hk : (PTy.struct (sid ["M"]) (.cons ['a'] (.array (.int 4 .signed) 2) .nil)).sty =
      some (.struct (.cons ['a'] ints .nil)) := by rfl
  rw [hk, Option.bind_some] at e2
  have hp : ∃ p, plan (describe (.struct (.cons ['a'] ints .nil))) [] = some p := ⟨_, rfl⟩
  obtain ⟨p, hp⟩ := hp
  have hr : (plan (describe (.struct (.cons ['a'] ints .nil))) []).any (fun p =>
      (encode envWide (describe (.struct (.cons ['a'] ints .nil))) p [] 10 100 (fun _ => 0)).sat fun s =>
      (decode { envWide with S := s.mem } p (describe (.struct (.cons ['a'] ints .nil))) [] 100 200 300 8 (fun _ => 0x55)).any
        fun d => match cppVal d.mem ints 200 with
        | some (.arr [.int a, .int b]) => a == 1 && b == 0
        | _ => false) = true := by decide +kernel
  rw [hp] at hr
  obtain ⟨r, hs, hr⟩ := Res.sat_ok hr
  obtain ⟨d, hd, hr⟩ := decode_any hr
  refine ⟨_, sc, s, c, p, _, h1, h2, c1, a4 c c1, by rw [e2, hp], a1, rfl, by with_unfolding_all rfl, fun base o ho => ?_⟩
  have hS := c3 base p o (a4 c c1) ho
  obtain ⟨u, k, f1, f2, d1, f3⟩ := hS.encoders _ List.mem_cons_self
  cases nodup_fst_eq (ScopeInv.init.run (elabRoot_run h1)).nodup f1 a1
  cases hk.symm.trans f2
  obtain ⟨u, k, g1, g2, d2, g3⟩ := hS.decoders _ List.mem_cons_self
  cases nodup_fst_eq (ScopeInv.init.run (elabRoot_run h1)).nodup g1 a1
  cases hk.symm.trans g2
  refine ⟨r, d, max d1 d2, (f3 _ (Nat.le_max_left ..) _ _ _ _).trans hs,
    (g3 _ (Nat.le_max_right ..) _ _ _ _ _ _).trans hd, ?_⟩
  split at hr
  · rename_i a b h
    simp only [Bool.and_eq_true, beq_iff_eq] at hr
    rw [hr.1, hr.2] at h
    have : cppVal d.mem (.struct (.cons ['a'] ints .nil)) 200 = (cppVal d.mem ints 200).map fun v => .struct [(['a'], v)] := by
      have : 200 + roundUp 0 (cpp ints).2 = 200 := by decide
      simp only [cppVal, cppFieldsVal, this]
      cases cppVal d.mem ints 200 <;> rfl
    rw [this, h]
    rfl
  · cases hr

end PJ
