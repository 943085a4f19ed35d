import Verif.Spec.Uses
/-!
Which names the LLVM generator can shorten: it keeps 513 bytes of a name.
-/
namespace Koopa.Spec

/-- The number of bytes of a text in UTF-8. -/
def byteLen (s : Str) : Nat := (s.map Char.utf8Size).sum

/-- With `k` bytes before it, the text has at most 513 bytes, or the first 513 end with a character. -/
def CutsAt (k : Nat) (s : Str) : Prop := k + byteLen s ≤ 513 ∨ ∃ a b, s = a ++ b ∧ k + byteLen a = 513

/-- The name can be shortened. What follows the `@` of a name is written after one byte, what follows the `%` after two. -/
def Cuttable (n : Str) : Prop := (∀ s, n = '@' :: s → CutsAt 1 s) ∧ ∀ s, n = '%' :: s → CutsAt 2 s

/-- All names in the program can be shortened. -/
structure NamesCut (p : Program) : Prop where
  funcs : ∀ f fd, p.funcs.get? f = some fd → Cuttable fd.name
  globals : ∀ v x n, GlobalVal p v x → x.name = some n → Cuttable n
  locals : ∀ f v x n, LocalVal p f v x → x.name = some n → Cuttable n
  blocks : ∀ f b x n, Block p f b x → x.name = some n → Cuttable n

end Koopa.Spec
