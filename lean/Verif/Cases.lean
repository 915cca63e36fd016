import Verif.Stream.Consume
import Verif.Doc.Exact
import Verif.Doc.Text
/-!
# Concrete cases for C20 and C55

The theorems of `Stream/Props.lean` about seeking and of `Doc/Text.lean`, applied to the examples of
`Stream/Consume.lean` and `Doc/Exact.lean`.
-/
namespace Knfmt.Stream

/-- `f ( a , ( b ) ) ; EOF`: seeking to `,` makes it the next token, seeking after `)` makes `;` the next one, and
seeking after the end of the file is refused. -/
example : (pop (callStream true) (seek { st := { tk := some 0 } } 3)).2 = some 3 :=
  seek_pop _ _ _ (by decide) fun _ => by decide

example : (seekAfter (callStream false) { st := { tk := some 0 } } 7).2 = true ∧
    (pop (callStream false) (seekAfter (callStream false) { st := { tk := some 0 } } 7).1).2 = some 8 := by
  have h := seek_after_pop (callStream false) { st := { tk := some 0 } } 7 (by decide) (by decide)
  have h7 := h.1.mpr (by decide)
  exact ⟨h7, h.2 h7⟩

example : (seekAfter (callStream false) { st := { tk := some 0 } } 9).2 = false := by decide +kernel

/-- The start of a branch is not delivered, so that the condition of `seek_pop` is needed. -/
example : (pop (callStream true) (seek { st := { tk := some 0 } } 5)).2 = none := by decide +kernel

end Knfmt.Stream

namespace Knfmt.Doc
open Knfmt.Doc.Spec

/-- The muted text of `rendersExample` is not printed, all the rest is. -/
example : nonblank (docExec { limit := 80 } true "x ".toList rendersExample).buf.reverse = "xa=1;/*c*/b;".toList := by
  rw [doc_exec_text { limit := 80 } rfl true _ rendersExample (by decide +kernel)]
  decide +kernel

/-- `if (a)` and its body on two lines. -/
def leavesExample : Doc :=
  concat [.group (concat [.literal "if".toList none, .line, .literal "(a)".toList none]), .indent 8 (.seq .hardline
    (.literal "b;".toList none))]

example : (docExec { limit := 80 } false [] leavesExample).buf.reverse = "if (a)\n\tb;".toList ∧
    nonblank (docExec { limit := 80 } false [] leavesExample).buf.reverse = nonblank (leaves leavesExample) ∧
    leaves leavesExample = "if(a)b;".toList := by
  refine ⟨by decide +kernel, ?_, by decide +kernel⟩
  exact doc_exec_leaves { limit := 80 } rfl false [] leavesExample (by simp [leavesExample, concat, Unmuted]) (by decide +kernel)

end Knfmt.Doc
