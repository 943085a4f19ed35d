import Verif.Lemmas.Front.TypeText
import Verif.Lemmas.Front.Accept
/-!
C24: the text form of types.
-/
namespace Koopa
open Spec

theorem tokText_word {s : Str} (h : ∀ x ∈ s, isAlnum x = true ∨ x = '_') (hs : ∃ c t, s = c :: t ∧ isNum c = false) : TokText (.sym ('@' :: s)) ('@' :: s) :=
  .sym (.inl rfl) ⟨hs, h⟩

/-- C24: the declaration `decl @f(T)`, where `T` is the printed text of a type, is accepted, and declares a function whose
only parameter has this type. -/
theorem C24_type_round_trip (w : World) {t : Ty} (ht : Expressible t) : ∃ p w' f fd,
    generate w ("decl @f(".toList ++ t.show ++ ")".toList) false = some (some p, w') ∧ p.funcLayout = [f] ∧
      p.funcs.get? f = some fd ∧ fd.name = "@f".toList ∧ fd.ty = .func [t] .unit := by
  obtain ⟨a, h1, h2⟩ := says_type ht
  have hr : Reads ("decl @f(".toList ++ t.show ++ ")".toList) [.funDecl "@f".toList [a] none] := by
    obtain ⟨us, i1, i2⟩ := h2 1 [')'] [⟨1, .other ')'⟩] (.cons (by decide)) (Toks.punct (by decide) (.eof (.blank .nil)))
    refine ⟨⟨1, .kw .decl⟩ :: ⟨1, .sym "@f".toList⟩ :: ((⟨1, .other '('⟩ :: (us ++ [⟨1, .other ')'⟩])) ++ []) ++ [], ?_, ?_⟩
    · have h3 := Toks.word (s := "decl".toList) (k := .kw .decl) (.kw (by decide)) (.cons (by decide)) (Toks.sp
        (Toks.word (s := "@f".toList) (k := .sym "@f".toList) (tokText_word (by decide) ⟨'f', [], rfl, by decide⟩) (.cons (by decide)) (Toks.punct (c := '(') (by decide) i2)))
      simpa using h3
    · exact .cons (.funDecl rfl rfl (.items rfl (.one i1) rfl) .none) .nil
  have hb : Builds [.funDecl "@f".toList [a] none] (BS.new w.ids)
      { BS.new w.ids with
        prog := ((BS.new w.ids).prog.insertFunc ⟨.func [t] .unit, "@f".toList, [], Dfg.new, Layout.new⟩).1
        globalFuncs := (BS.new w.ids).globalFuncs.insert "@f".toList w.ids.nextFunc } := by
    refine .cons (b1 := _) ⟨?_, ?_⟩ .nil
    rotate_left
    · rfl
    have hc : checkSanity "@f".toList [t] = some () := by simp [checkSanity, ht.not_unit, assert, validName]
    simp only [buildOn, buildFunDecl, genTypes, h1, genRetType, B.bind_eq, B.lift, B.api, Program.newFuncDecl, hc]
    rfl
  refine ⟨_, _, w.ids.nextFunc, _, generate_of_builds hr hb, rfl, Map.get?_insert_self .., rfl, rfl⟩

/-- C24: different types have different texts. -/
theorem C24_text_determines_type {t t' : Ty} (ht : Expressible t) (ht' : Expressible t') (h : t.show = t'.show) : t = t' := by
  obtain ⟨p, w', f, fd, h1, h2, h3, -, h4⟩ := C24_type_round_trip someWorld ht
  obtain ⟨p', w'', f', fd', h1', h2', h3', -, h4'⟩ := C24_type_round_trip someWorld ht'
  rw [h, h1'] at h1
  cases h1
  rw [h2] at h2'
  cases h2'
  rw [h3] at h3'
  cases h3'
  rw [h4] at h4'
  cases h4'
  rfl

/-- A case. -/
def sampleTy : Ty := .ptr (.func [.i32, .array (.ptr (.array .i32 3)) 12, .func [] .unit] (.ptr .i32))

example : Expressible sampleTy ∧ sampleTy.show = "*(i32, [*[i32, 3], 12], ()): *i32".toList := by
  refine ⟨.ptr (.func ?_ (.ptr .i32)), by decide⟩
  intro t ht
  simp only [List.mem_cons, List.not_mem_nil, or_false] at ht
  rcases ht with rfl | rfl | rfl
  · exact .i32
  · exact .array (.ptr (.array .i32 (by decide) (by decide))) (by decide) (by decide)
  · exact .proc (by simp)

end Koopa
