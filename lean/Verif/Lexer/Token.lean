import Verif.Common
/-!
# token.h: token types, flags and keyword tables

Generated from the `FOR_TOKEN_TYPES`, `FOR_TOKEN_ALIASES`, `FOR_TOKEN_CPP` and
`FOR_TOKEN_SENTINELS` lists of token.h:7-159.
-/
namespace Knfmt.Lexer

/-- Token types, token.h:7-159 and `LEXER_EOF`, lexer.h:5. -/
inductive TT where
  | assembly | attribute | kBreak | kCase | kChar | kConst | kContinue | kDefault | kDo
  | double | kElse | kEnum | kExtern | float | kFor | goto | kIf | kInline | kInt | long
  | register | restrict | kReturn | short | signed | sizeof | kStatic | kStruct | switch
  | typedef | kUnion | unsigned | void | volatile | kWhile | lsquare | rsquare | lparen
  | rparen | lbrace | rbrace | period | ellipsis | amp | ampamp | ampequal | star | starequal
  | plus | plusplus | plusequal | minus | arrow | minusminus | minusequal | tilde | exclaim
  | exclaimequal | slash | slashequal | percent | percentequal | less | lessless | lessequal
  | lesslessequal | greater | greatergreater | greaterequal | greatergreaterequal | caret
  | caretequal | pipe | pipepipe | pipeequal | question | colon | semi | equal | equalequal
  | comma | backslash | bool | int8 | int16 | int32 | int64 | uint8 | uint16 | uint32 | uint64
  | vaList | cppIf | cppIfdef | cppIfndef | cppElse | cppElif | cppEndif | cppDefine
  | cppInclude | comment | cpp | ident | literal | space | string | kNone | eof
deriving DecidableEq, Repr

/-- `tk_flags`, token.h:189-220. -/
structure Flags where
  type : Bool := false
  qualifier : Bool := false
  storage : Bool := false
  branch : Bool := false
  assign : Bool := false
  ambiguous : Bool := false
  binary : Bool := false
  discard : Bool := false
  c99 : Bool := false
  cpp : Bool := false
  optline : Bool := false
  optspace : Bool := false
  space : Bool := false
  diff : Bool := false
  typeFunc : Bool := false
  cfOff : Bool := false
  cfOn : Bool := false
deriving DecidableEq, Repr

/-- `FOR_TOKEN_TYPES`, token.h:7-102. -/
def keywords : List (List Char × TT × Flags) := [
  ("asm".toList, .assembly, {}),
  ("__attribute__".toList, .attribute, {}),
  ("break".toList, .kBreak, {}),
  ("case".toList, .kCase, {}),
  ("char".toList, .kChar, { type := true }),
  ("const".toList, .kConst, { qualifier := true }),
  ("continue".toList, .kContinue, {}),
  ("default".toList, .kDefault, {}),
  ("do".toList, .kDo, {}),
  ("double".toList, .double, { type := true }),
  ("else".toList, .kElse, {}),
  ("enum".toList, .kEnum, { type := true }),
  ("extern".toList, .kExtern, { storage := true }),
  ("float".toList, .float, { type := true }),
  ("for".toList, .kFor, {}),
  ("goto".toList, .goto, {}),
  ("if".toList, .kIf, {}),
  ("inline".toList, .kInline, { storage := true }),
  ("int".toList, .kInt, { type := true }),
  ("long".toList, .long, { type := true }),
  ("register".toList, .register, { storage := true }),
  ("restrict".toList, .restrict, { qualifier := true }),
  ("return".toList, .kReturn, {}),
  ("short".toList, .short, { type := true }),
  ("signed".toList, .signed, { type := true }),
  ("sizeof".toList, .sizeof, {}),
  ("static".toList, .kStatic, { storage := true }),
  ("struct".toList, .kStruct, { type := true }),
  ("switch".toList, .switch, {}),
  ("typedef".toList, .typedef, { type := true }),
  ("union".toList, .kUnion, { type := true }),
  ("unsigned".toList, .unsigned, { type := true }),
  ("void".toList, .void, { type := true }),
  ("volatile".toList, .volatile, { qualifier := true }),
  ("while".toList, .kWhile, {}),
  ("[".toList, .lsquare, {}),
  ("]".toList, .rsquare, {}),
  ("(".toList, .lparen, {}),
  (")".toList, .rparen, {}),
  ("{".toList, .lbrace, {}),
  ("}".toList, .rbrace, {}),
  (".".toList, .period, { ambiguous := true }),
  ("...".toList, .ellipsis, { type := true }),
  ("&".toList, .amp, { ambiguous := true, binary := true }),
  ("&&".toList, .ampamp, { binary := true }),
  ("&=".toList, .ampequal, { assign := true }),
  ("*".toList, .star, { ambiguous := true, binary := true, space := true }),
  ("*=".toList, .starequal, { assign := true }),
  ("+".toList, .plus, { ambiguous := true, binary := true }),
  ("++".toList, .plusplus, {}),
  ("+=".toList, .plusequal, { assign := true }),
  ("-".toList, .minus, { ambiguous := true, binary := true }),
  ("->".toList, .arrow, {}),
  ("--".toList, .minusminus, {}),
  ("-=".toList, .minusequal, { assign := true }),
  ("~".toList, .tilde, {}),
  ("!".toList, .exclaim, { ambiguous := true }),
  ("!=".toList, .exclaimequal, { binary := true }),
  ("/".toList, .slash, { ambiguous := true, binary := true, space := true }),
  ("/=".toList, .slashequal, { assign := true }),
  ("%".toList, .percent, { ambiguous := true, binary := true }),
  ("%=".toList, .percentequal, { assign := true }),
  ("<".toList, .less, { ambiguous := true, binary := true }),
  ("<<".toList, .lessless, { ambiguous := true, binary := true }),
  ("<=".toList, .lessequal, { binary := true }),
  ("<<=".toList, .lesslessequal, { assign := true }),
  (">".toList, .greater, { ambiguous := true, binary := true }),
  (">>".toList, .greatergreater, { ambiguous := true, binary := true }),
  (">=".toList, .greaterequal, { binary := true }),
  (">>=".toList, .greatergreaterequal, { assign := true }),
  ("^".toList, .caret, { ambiguous := true }),
  ("^=".toList, .caretequal, { assign := true }),
  ("|".toList, .pipe, { ambiguous := true, binary := true, space := true }),
  ("||".toList, .pipepipe, { binary := true }),
  ("|=".toList, .pipeequal, { assign := true }),
  ("?".toList, .question, {}),
  (":".toList, .colon, {}),
  (";".toList, .semi, {}),
  ("=".toList, .equal, { ambiguous := true, assign := true }),
  ("==".toList, .equalequal, { binary := true }),
  (",".toList, .comma, {}),
  ("\\".toList, .backslash, { discard := true }),
  ("_Bool".toList, .bool, { type := true }),
  ("int8_t".toList, .int8, { type := true }),
  ("int16_t".toList, .int16, { type := true }),
  ("int32_t".toList, .int32, { type := true }),
  ("int64_t".toList, .int64, { type := true }),
  ("uint8_t".toList, .uint8, { type := true }),
  ("uint16_t".toList, .uint16, { type := true }),
  ("uint32_t".toList, .uint32, { type := true }),
  ("uint64_t".toList, .uint64, { type := true }),
  ("va_list".toList, .vaList, { type := true })]

/-- `FOR_TOKEN_ALIASES`, token.h:104-139; flags inherited as in clang.c:165-172. -/
def aliases : List (List Char × TT × Flags) := [
  ("__asm".toList, .assembly, {}),
  ("__asm_".toList, .assembly, {}),
  ("__asm__".toList, .assembly, {}),
  ("_asm".toList, .assembly, {}),
  ("_asm_".toList, .assembly, {}),
  ("asm_".toList, .assembly, {}),
  ("asm_inline".toList, .assembly, {}),
  ("asm_volatile_goto".toList, .assembly, {}),
  ("__attribute".toList, .attribute, {}),
  ("__attribute_".toList, .attribute, {}),
  ("__attribute__".toList, .attribute, {}),
  ("_attribute".toList, .attribute, {}),
  ("_attribute_".toList, .attribute, {}),
  ("_attribute__".toList, .attribute, {}),
  ("attribute_".toList, .attribute, {}),
  ("_inline".toList, .kInline, { storage := true }),
  ("_inline_".toList, .kInline, { storage := true }),
  ("_inline__".toList, .kInline, { storage := true }),
  ("inline_".toList, .kInline, { storage := true }),
  ("_restrict".toList, .restrict, { qualifier := true }),
  ("__volatile".toList, .volatile, { qualifier := true }),
  ("__volatile__".toList, .volatile, { qualifier := true }),
  ("_volatile".toList, .volatile, { qualifier := true }),
  ("_volatile_".toList, .volatile, { qualifier := true }),
  ("u_int8_t".toList, .uint8, { type := true }),
  ("u_int16_t".toList, .uint16, { type := true }),
  ("u_int32_t".toList, .uint32, { type := true }),
  ("u_int64_t".toList, .uint64, { type := true })]

/-- `FOR_TOKEN_CPP`, token.h:141-150. -/
def cppKeywords : List (List Char × TT) := [
  ("if".toList, .cppIf),
  ("ifdef".toList, .cppIfdef),
  ("ifndef".toList, .cppIfndef),
  ("else".toList, .cppElse),
  ("elif".toList, .cppElif),
  ("endif".toList, .cppEndif),
  ("define".toList, .cppDefine),
  ("include".toList, .cppInclude)]

/-- `token_type_normalize`, token.c:236-245. -/
def TT.normalize : TT → TT
  | .cppIfdef => .cppIf
  | .cppIfndef => .cppIf
  | .cppElif => .cppElse
  | t => t

end Knfmt.Lexer
