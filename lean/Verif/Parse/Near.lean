import Verif.Lexer.Token
/-!
# Which tokens may be written next to each other (C79)

A criterion in terms of types. That it is correct for the texts of tokens is proved in
`Verif.Parse.NearSound`.
-/
namespace Knfmt.Parse.Spec
open Knfmt.Lexer (TT)

/-- The first character of an operator, token.h:46-91. Nothing for names, constants and strings. -/
def opHead : TT → Option Char
  | .lsquare => some '[' | .rsquare => some ']' | .lparen => some '(' | .rparen => some ')'
  | .lbrace => some '{' | .rbrace => some '}' | .period | .ellipsis => some '.'
  | .amp | .ampamp | .ampequal => some '&' | .star | .starequal => some '*'
  | .plus | .plusplus | .plusequal => some '+'
  | .minus | .arrow | .minusminus | .minusequal => some '-'
  | .tilde => some '~' | .exclaim | .exclaimequal => some '!' | .slash | .slashequal => some '/'
  | .percent | .percentequal => some '%'
  | .less | .lessless | .lessequal | .lesslessequal => some '<'
  | .greater | .greatergreater | .greaterequal | .greatergreaterequal => some '>'
  | .caret | .caretequal => some '^' | .pipe | .pipepipe | .pipeequal => some '|'
  | .question => some '?' | .colon => some ':' | .semi => some ';'
  | .equal | .equalequal => some '=' | .comma => some ',' | .backslash => some '\\'
  | _ => none

/-- The characters that continue an operator, or make it the beginning of a comment. -/
def opNexts : TT → List Char
  | .period => ['.']
  | .amp => ['&', '=']
  | .star | .exclaim | .percent | .lessless | .greatergreater | .caret | .equal => ['=']
  | .plus => ['+', '=']
  | .minus => ['>', '-', '=']
  | .slash => ['=', '/', '*']
  | .less => ['<', '=']
  | .greater => ['>', '=']
  | .pipe => ['|', '=']
  | _ => []

/-- May a token of type `b` be written right after one of type `a`? -/
def near (a b : TT) : Bool :=
  match opHead b with
  | some c => if a = .literal then decide (c ≠ '.') else !(opNexts a).contains c
  | none => decide (a = .string) || ((opHead a).isSome && !(decide (a = .period) && decide (b = .literal)))

/-- May any token be written right after one of type `a`? -/
def loose (a : TT) : Bool :=
  decide (a = .string) || ((opHead a).isSome && (opNexts a).isEmpty && decide (a ≠ .period))

end Knfmt.Parse.Spec
