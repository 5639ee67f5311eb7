import Verif.Props.C58_Variants
import Verif.Lemmas.PlanOut
/-!
# C55: sources of encoders and decoders

What is promised about C++ objects, and about messages of protocols without an outlined variant, is true.
-/
namespace PJ

theorem tryOutline_noPath (t : Ty) : tryOutline t [] = none := by
  cases t <;> simp [tryOutline]

/-- If there is nothing to outline, nothing is outlined. -/
theorem plan_noOut {t : Ty} {path : Path} {p : Proto} (hn : t.noOut) (hp : tryOutline t path = none) (h : plan t path = some p) :
    p.head.noOut := by
  unfold plan at h
  split at h
  · cases h
    have h1 : (prepare t path).noOut := by
      unfold prepare
      rw [hp]
      simp only [Option.getD_none]
      cases hf : findHoist t with
      | none => exact hn
      | some t2 => exact (findHoist_out t t2 hf).1 hn
    have h2 := (layout_out (prepare t path)).1 h1
    unfold genOffset
    rw [outDist_none _ (noOut_hasOut _ h2)]
    exact h2
  · cases h

/-- Encoders stay inside of the C++ object, whatever the protocol: copies from it that do so before copy coalescing do so
after. -/
theorem C55_encoder_partial (host : Ty) (hh : HostTy host) (mp : Nat) (small : 2 * host.size + 2 * mp < 2 ^ 64) (is : List Inst)
    (hi : ∀ i ∈ is, ∀ r o l, i.source = some (r, o, l) → r = 0) (hin : Inside (fun _ => host.size) is) :
    Inside (fun _ => host.size) (coalesce (host.ptrs.target mp) {} is) :=
  C55_source_partial host mp is hh.wf hh.noOut small hi hin

/-- Decoders stay inside of the message, whatever they decode into, if the tag path of the protocol leads to no
variant. -/
theorem C55_decoder_partial (host : Ty) (path : Path) (p : Proto) (hh : HostTy host) (hpath : tryOutline host path = none)
    (hp : plan host path = some p) (mp : Nat) (small : 2 * p.head.size + 2 * mp < 2 ^ 64) (is : List Inst)
    (hi : ∀ i ∈ is, ∀ r o l, i.source = some (r, o, l) → r = 0) (hin : Inside (fun _ => p.head.size) is) :
    Inside (fun _ => p.head.size) (coalesce (p.head.ptrs.target mp) {} is) :=
  C55_source_partial p.head mp is (plan_ok host path p hh.sch hh.small hh.plain hh.noOut hp).1.wf
    (plan_noOut hh.noOut hpath hp) small hi hin

/-- In particular without a tag path. -/
theorem C55_untagged_partial (host : Ty) (p : Proto) (hh : HostTy host) (hp : plan host [] = some p) (mp : Nat)
    (small : 2 * p.head.size + 2 * mp < 2 ^ 64) (is : List Inst) (hi : ∀ i ∈ is, ∀ r o l, i.source = some (r, o, l) → r = 0)
    (hin : Inside (fun _ => p.head.size) is) : Inside (fun _ => p.head.size) (coalesce (p.head.ptrs.target mp) {} is) :=
  C55_decoder_partial host [] p hh (tryOutline_noPath host) hp mp small is hi hin

/-- No block of the function for two variants copies from beyond the source, neither before nor after copy coalescing. -/
theorem C58_inside (F : Nat → Nat → Nat → Nat) (A : Aliasing) (dts sts : Terms) (dl sl : VarL) (sa da mp : Nat) (f : CFn) (memcpy : Bool)
    (hwt : WF (.variant dts dl)) (hws : WF (.variant sts sl)) (hn : (Ty.variant sts sl).noOut) (small : 2 * sl.size + 2 * mp < 2 ^ 64)
    (hl : lowerVariant F A sa da dts dl sts sl = some f) :
    (∀ b ∈ f, Inside (fun _ => sl.size) b.body) ∧
      ∀ b ∈ f.coalesce ((Ty.variant sts sl).ptrs.target mp) memcpy, Inside (fun _ => sl.size) b.body := by
  have key : ∀ b ∈ f, ∀ i ∈ b.body, ∀ r o l, i.source = some (r, o, l) → r = 0 ∧ o + l ≤ sl.size := by
    intro b hb i hi r o l hs
    cases lowerVariant_pieces hl hwt hws b hb i hi with
    | poison => simp [Inst.source] at hs
    | copy s d n h1 h2 =>
      simp only [Inst.source, Option.map_some, Option.some.injEq, Prod.mk.injEq] at hs
      omega
    | conv => simp [Inst.source] at hs
  have hin : ∀ b ∈ f, Inside (fun _ => sl.size) b.body := fun b hb i hi r o l h => (key b hb i hi r o l h).2
  refine ⟨hin, fun b hb => ?_⟩
  cases memcpy with
  | false => exact hin b (by simpa [CFn.coalesce] using hb)
  | true =>
    simp only [CFn.coalesce, if_true, List.mem_map] at hb
    obtain ⟨c, hc, rfl⟩ := hb
    exact C55_source_partial (.variant sts sl) mp c.body hws hn small (fun i hi r o l h => (key c hc i hi r o l h).1) (hin c hc)

/-! ## Samples -/

/-- The variant of C58 without a tag path: its message has no outlined variant. -/
example (p : Proto) (hp : plan (.variant C58.ots C58.ol) [] = some p) : p.head.noOut :=
  plan_noOut (by simp [C58.ots, C58.ol, C56.old, C56.u8, C56.u16, C56.u32, Ty.noOut, Terms.noOut, Fields.noOut])
    (tryOutline_noPath _) hp

/-- Two copies that make use of all of the message, and become one. -/
example : ∃ p, HostTy C56.sent ∧ plan C56.sent [] = some p ∧
    Inside (fun _ => p.head.size) [.copy ⟨some 0, 1, 0, 0, 2⟩, .copy ⟨some 0, 1, 2, 2, 2⟩] ∧
    Inside (fun _ => p.head.size) (coalesce (p.head.ptrs.target 16) {} [.copy ⟨some 0, 1, 0, 0, 2⟩, .copy ⟨some 0, 1, 2, 2, 2⟩]) := by
  have hh : HostTy C56.sent := by
    refine ⟨C56.sent_wf, ?_, ?_, ?_, ?_⟩
    · simp [C56.sent, C56.u8, C56.u16, Sch, SchFields, Fields.toList]
    · simp [C56.sent, C56.u8, C56.u16, Small, SmallFields]
    · simp [C56.sent, C56.u8, C56.u16, Plain, PlainFields]
    · simp [C56.sent, C56.u8, C56.u16, Ty.noOut, Fields.noOut]
  have hs : C56.wire.head.size = 4 := by decide +kernel
  have hin : Inside (fun _ => C56.wire.head.size) [.copy ⟨some 0, 1, 0, 0, 2⟩, .copy ⟨some 0, 1, 2, 2, 2⟩] := by
    intro i hi r o l h
    show o + l ≤ C56.wire.head.size
    rw [hs]
    simp only [List.mem_cons, List.not_mem_nil, or_false] at hi
    rcases hi with rfl | rfl <;> simp [Inst.source] at h <;> omega
  refine ⟨C56.wire, hh, rfl, hin, C55_untagged_partial C56.sent C56.wire hh rfl 16 (by rw [hs]; decide) _ ?_ hin⟩
  intro i hi r o l h
  simp only [List.mem_cons, List.not_mem_nil, or_false] at hi
  rcases hi with rfl | rfl <;> simp [Inst.source] at h <;> omega

example : Sample.copiesOf (coalesce (C56.wire.head.ptrs.target 16) {} [.copy ⟨some 0, 1, 0, 0, 2⟩, .copy ⟨some 0, 1, 2, 2, 2⟩]) =
    [⟨some 0, 1, 0, 0, 4⟩] := by decide +kernel

/-- The function of C58. -/
example (mp : Nat) (h : mp ≤ 64) : ∃ f, lowerVariant (fun _ _ b => b) C56.alias 100 200 C58.nts C58.nl C58.ots C58.ol = some f ∧
    ∀ b ∈ f.coalesce ((Ty.variant C58.ots C58.ol).ptrs.target mp) true, Inside (fun _ => C58.ol.size) b.body := by
  obtain ⟨f, hf, -⟩ := C58.code
  exact ⟨f, hf, (C58_inside _ _ _ _ _ _ _ _ mp f true C58.nts_wf C58.ots_wf
    (by simp [C58.ots, C58.ol, C56.old, C56.u8, C56.u16, C56.u32, Ty.noOut, Terms.noOut, Fields.noOut]) (by simp [C58.ol]; omega) hf).2⟩

end PJ
