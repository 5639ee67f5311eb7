import Verif.Lemmas.Forget
import Verif.Props.C22_BinCompat
import Verif.Props.C29_C30_Reflect
/-!
# C29: a transported protocol is as good as the original

`wire_min_length`, which is lost when a protocol is sent, is used by planning only.
-/
namespace PJ

mutual
theorem binCompat_forget : ∀ t : Ty, binCompat t t.forget = true
  | .int _ _ _ => by simp [binCompat, Ty.forget]
  | .float _ _ => by simp [binCompat, Ty.forget]
  | .unit => by simp [binCompat]
  | .struct fs _ _ => by
    simp only [Ty.forget, binCompat, binFields_forget fs, forget_fieldsLength fs]
    simp
  | .variant ts l => by
    have : sameVarL l l = true := by unfold sameVarL; split <;> simp_all
    have hl : ts.forget.toList.length = ts.toList.length := by rw [forget_toList, List.length_map]
    simp only [Ty.forget, binCompat, binTerms_forget ts, this, hl]
    simp
  | .array e _ _ _ => by simp [Ty.forget, binCompat, binCompat_forget e]
  | .vector e l => by simp [Ty.forget, binCompat, binCompat_forget e, sameVecL]
termination_by structural t => t
theorem binFields_forget : ∀ fs : Fields, binFields fs fs.forget.toList = true
  | .nil => rfl
  | .cons n o t r => by
    simp only [Fields.forget, Fields.toList, binFields]
    rw [takeFirst_self (by simp [binCompat_forget t])]
    exact binFields_forget r
termination_by structural fs => fs
theorem binTerms_forget : ∀ ts : Terms, binTerms ts ts.forget.toList = true
  | .nil => rfl
  | .cons n g as t r => by
    simp only [Terms.forget, Terms.toList, binTerms]
    rw [takeFirst_self (by simp [C22_refl t, sameAttrs_refl])]
    exact binTerms_forget r
termination_by structural ts => ts
theorem forget_fieldsLength : ∀ fs : Fields, fs.forget.toList.length = fs.toList.length
  | .nil => rfl
  | .cons _ _ _ r => by simp [Fields.forget, Fields.toList, forget_fieldsLength r]
termination_by structural fs => fs
end

mutual
theorem reflectable_forget : ∀ t : Ty, reflectable t.forget = reflectable t
  | .int _ _ _ => rfl
  | .float _ _ => rfl
  | .unit => rfl
  | .struct fs _ _ => by simp only [Ty.forget, reflectable, reflectableFields_forget fs]
  | .variant ts _ => by simp only [Ty.forget, reflectable, reflectableTerms_forget ts]
  | .array e _ _ _ => by simp only [Ty.forget, reflectable, reflectable_forget e]
  | .vector e _ => by simp only [Ty.forget, reflectable, reflectable_forget e]
termination_by structural t => t
theorem reflectableFields_forget : ∀ (fs : Fields) (off al : Nat), reflectableFields fs.forget off al = reflectableFields fs off al
  | .nil, _, _ => rfl
  | .cons _ _ t r, _, _ => by simp only [Fields.forget, reflectableFields, reflectable_forget t, reflectableFields_forget r]
termination_by structural fs => fs
theorem reflectableTerms_forget : ∀ ts : Terms, reflectableTerms ts.forget = reflectableTerms ts
  | .nil => rfl
  | .cons _ _ _ t r => by simp only [Terms.forget, reflectableTerms, reflectable_forget t, reflectableTerms_forget r]
termination_by structural ts => ts
end

theorem decodeAny_forget (E : Env) (schema : Nat) (at' : Int) (t : Ty) (b msg obj buf cap : Nat) (mem : Mem) :
    decodeAny E schema at' ⟨t.forget, b⟩ msg obj buf cap mem = decodeAny E schema at' ⟨t, b⟩ msg obj buf cap mem := by
  have h : ∀ sa da st, xcode E (reflectable t) t.forget [] [] sa da st = xcode E (reflectable t) t [] [] sa da st :=
    fun sa da st => xcode_forgetSrc E _ t [] [] sa da st
  unfold decodeAny xAny
  simp only [reflectable_forget, h]

/-- Whatever the protocol: sent and received, it encodes, decodes and sizes exactly like the original, for all host
types, paths, handlers, objects and messages, and is binary compatible with it. -/
theorem C29_codec (ctx : Ctx) (fuel : Nat) (head : Ref) (b : Nat) (p : PProto) (wf : WFRef ctx head)
    (h : reflectProto ctx fuel head b = some p) (hl : p.types.length < 2 ^ 31) (n : Nat) (t : Ty)
    (ht : tree ctx n head = some t) :
    ∃ head' ctx' t', unreflectProto p.types.length p = some (head', b, ctx') ∧ tree ctx' n head' = some t' ∧
      (∀ E host path obj buf mem, encode E host ⟨t', b⟩ path obj buf mem = encode E host ⟨t, b⟩ path obj buf mem) ∧
      (∀ E host hs msg obj buf cap mem,
        decode E ⟨t', b⟩ host hs msg obj buf cap mem = decode E ⟨t, b⟩ host hs msg obj buf cap mem) ∧
      (∀ ru S host path obj, sizeFn ru S host ⟨t', b⟩ path obj = sizeFn ru S host ⟨t, b⟩ path obj) ∧
      Proto.binCompat ⟨t, b⟩ ⟨t', b⟩ = true ∧ reflectable t' = reflectable t ∧
      (∀ E schema at' msg obj buf cap mem,
        decodeAny E schema at' ⟨t', b⟩ msg obj buf cap mem = decodeAny E schema at' ⟨t, b⟩ msg obj buf cap mem) := by
  obtain ⟨ctx', h1, h2⟩ := C29_round_trip_partial ctx fuel head b p wf h hl
  refine ⟨_, ctx', t.forget, h1, ?_, fun E host path obj buf mem => encode_forget E host ⟨t, b⟩ path obj buf mem,
    fun E host hs msg obj buf cap mem => decode_forget E ⟨t, b⟩ host hs msg obj buf cap mem,
    fun ru S host path obj => sizeFn_forget ru S host ⟨t, b⟩ path obj, ?_, reflectable_forget t,
    fun E schema at' msg obj buf cap mem => decodeAny_forget E schema at' t b msg obj buf cap mem⟩
  · rw [tree_forget ctx ctx' n head h2, ht]
    rfl
  · simp [Proto.binCompat, binCompat_forget]

/-- The hypotheses hold of the sample, a variant with split vectors of a shared struct. -/
example : ∃ p t, WFRef Sample.reflCtx (.nom Sample.reflKeyV) ∧
    reflectProto Sample.reflCtx 4 (.nom Sample.reflKeyV) 9 = some p ∧ p.types.length < 2 ^ 31 ∧
    tree Sample.reflCtx 4 (.nom Sample.reflKeyV) = some t := by
  have h := Sample.reflCtx_pool
  match hp : reflectProto Sample.reflCtx 4 (.nom Sample.reflKeyV) 9 with
  | none => rw [hp] at h; simp at h
  | some p =>
    rw [hp] at h
    simp only [Option.map_some, Option.some.injEq, Prod.mk.injEq] at h
    exact ⟨p, _, Sample.reflCtx_wf, rfl, by rw [h.2]; decide, rfl⟩

end PJ
