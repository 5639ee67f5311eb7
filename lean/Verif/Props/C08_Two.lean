import Verif.Props.C08_Handlers

/-! C08: handlers on two variants of one destination.

The parser accepts handler paths into several variants (/repo/pj/parse.cpp 828-856 checks every path by
itself), but a decoder has one callback slot per call: every variant that stores a handled term overwrites
it (/repo/pj/llvm_gen2.cpp 655-665), and it is called once, after the message is decoded
(590-640). -/

namespace PJ

namespace C08

/-- A variant with one term `x` of one byte, tag 1. -/
def one : Ty :=
  .variant (.cons ['x'] 1 [] (.int 1 .unsigned 1) .nil)
    { outline := false, dflt := 0, termOff := 0, termSize := 1, tagOff := 1, tagW := 1, size := 2,
      align := 1, termAlign := 1 }

/-- Two such variants, `a` and `b`. -/
def two : Ty := .struct (.cons ['a'] 0 one (.cons ['b'] 2 one .nil)) 4 1

/-- The message `a = x(7), b = x(9)` at address 100. -/
def E2 : Env :=
  ⟨fun a => if a = 100 then 7 else if a = 101 then 1 else if a = 102 then 9 else if a = 103 then 1 else 0,
    fun _ => 0, fun _ _ b => b⟩

end C08

/-- Violation: handler 3 is registered for term `x` of variant `a` and handler 5 for term `x` of variant
`b`.  The decoded object holds both terms and only handler 5 is called; with the handler of `a` alone it
is called. -/
theorem C08_violated_two : ∃ d d',
    decode C08.E2 ⟨C08.two, 0⟩ C08.two [([['a'], ['x']], 3), ([['b'], ['x']], 5)] 100 1000 2000 0
      (fun _ => 0) = some d ∧
    decode C08.E2 ⟨C08.two, 0⟩ C08.two [([['a'], ['x']], 3)] 100 1000 2000 0 (fun _ => 0) = some d' ∧
    WF C08.two ∧ Compat C08.two C08.two ∧ LeadsTo [['a']] C08.two ∧ LeadsTo [['b']] C08.two ∧
    NotEnumAt [['a']] C08.two ∧ NotEnumAt [['b']] C08.two ∧
    readVal d.mem C08.two 1000 = some (.struct [(['a'], .variant ['x'] (.int 7)),
      (['b'], .variant ['x'] (.int 9))]) ∧
    d.called = some 5 ∧ d'.called = some 3 := by
  obtain ⟨d, hd, h⟩ := decode_any (o := decode C08.E2 ⟨C08.two, 0⟩ C08.two
    [([['a'], ['x']], 3), ([['b'], ['x']], 5)] 100 1000 2000 0 (fun _ => 0))
    (q := fun d => d.mem 1000 = 7 && d.mem 1001 = 1 && d.mem 1002 = 9 && d.mem 1003 = 1 &&
      d.called = some 5) (by decide +kernel)
  obtain ⟨d', hd', h'⟩ := decode_any (o := decode C08.E2 ⟨C08.two, 0⟩ C08.two
    [([['a'], ['x']], 3)] 100 1000 2000 0 (fun _ => 0)) (q := fun d => d.called = some 3)
    (by decide +kernel)
  simp only [Bool.and_eq_true, decide_eq_true_eq] at h h'
  obtain ⟨⟨⟨⟨h0, h1⟩, h2⟩, h3⟩, h4⟩ := h
  refine ⟨d, d', hd, hd', ?_, ?_, ?_, ?_, ?_, ?_, ?_, h4, h'⟩
  · simp [C08.two, C08.one, WF, WFFields, WFTerms, Fields.toList, Terms.toList]
    constructor
    · constructor <;> simp [Ty.size, Disj]
    · constructor <;> simp [Ty.size, Disj]
  · have h1 : Compat C08.one C08.one := by
      simp [C08.one, Compat, enumFast, Terms.isEnum, Terms.toList, Terms.hasName, CompatNamed, Ty.size]
    simp only [C08.two, Compat, CompatFields, Fields.findLast]
    exact ⟨h1, h1, trivial⟩
  · simp [LeadsTo, C08.two, C08.one, Fields.toList]
  · simp [LeadsTo, C08.two, C08.one, Fields.toList]
  · simp [NotEnumAt, C08.two, C08.one, Fields.find, Terms.isEnum, Terms.toList, Ty.size]
  · simp [NotEnumAt, C08.two, C08.one, Fields.find, Terms.isEnum, Terms.toList, Ty.size]
  · have a0 : readN d.mem 1000 1 = 7 := by simp only [readN, readBytes, h0]; rfl
    have a1 : readN d.mem 1001 1 = 1 := by simp only [readN, readBytes, h1]; rfl
    have a2 : readN d.mem 1002 1 = 9 := by simp only [readN, readBytes, h2]; rfl
    have a3 : readN d.mem 1003 1 = 1 := by simp only [readN, readBytes, h3]; rfl
    simp [C08.two, C08.one, readVal, readFields, readTerm, a0, a1, a2, a3]
    decide

/-- Of the handlers 3 and 5 one is called. -/
example : ∃ d i path, decode C08.E2 ⟨C08.two, 0⟩ C08.two [([['a'], ['x']], 3), ([['b'], ['x']], 5)] 100 1000 2000 0
    (fun _ => 0) = some d ∧ d.called = some i ∧ (path, i) ∈ [([['a'], ['x']], 3), ([['b'], ['x']], 5)] := by
  obtain ⟨d, _, hd, -, -, -, -, -, -, -, -, hc, -⟩ := C08_violated_two
  obtain ⟨path, hp⟩ := C08_index _ _ _ _ _ _ _ _ _ _ hd 5 hc
  exact ⟨d, 5, path, hd, hc, hp⟩

end PJ
