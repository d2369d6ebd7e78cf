import Verif.Go.Cut
/-!
# Git's notation for renames in `--numstat`

`pprint_rename` of git prints the common leading directories and the common trailing components once:
`dir/{old => new}/file`; without common parts `old => new`.
-/
namespace Ripsrc.Spec

/-- A path made of components. -/
def pathOf (cs : List Str) : Str := joinWith b!"/" cs

/-- `pre/{old => new}/post`. -/
def braceRename (pre old new post : List Str) : Str :=
  pre.flatMap (fun c => c ++ b!"/") ++ (b!"{" ++ (pathOf old ++ (b!" => " ++ (pathOf new ++ (b!"}" ++ post.flatMap (fun c => b!"/" ++ c))))))

/-- `old => new`. -/
def plainRename (old new : Str) : Str := old ++ (b!" => " ++ new)

/-- The parts of a brace rename are unambiguous: the old name has no `{`, the trailing part has no `}`, and there is no second
arrow after the first one. -/
structure BraceOk (pre old new post : List Str) : Prop where
  comps : ∀ c ∈ pre ++ old ++ new ++ post, Comp c
  nonempty : pre ≠ [] ∨ (old ≠ [] ∧ new ≠ [])
  noBrace : (123 : UInt8) ∉ pathOf old
  noClose : (125 : UInt8) ∉ post.flatMap (fun c => b!"/" ++ c)
  noArrow : ¬ b!" => " <:+: b!" " ++ (pathOf new ++ (b!"}" ++ post.flatMap (fun c => b!"/" ++ c)))

end Ripsrc.Spec
