import Verif.Lexer.Token
import Verif.Comment.Model
import Verif.Util.Model
/-!
# cpp-include-guard.c: include guards

Only the tokens after `lexer_alloc` has read the file matter, the last one of them is the end of file.
-/
namespace Knfmt.Guard

open Knfmt.Lexer (TT Flags)
open Knfmt.Comment (isSpace)

/-- A prefix of a token: a comment, a directive or white space. `id` stands for its address, `nx` is
`branch.nx`, clang.c:46-51, the next directive of the conditional. -/
structure Pre where
  id : Nat
  type : TT
  text : List Char
  nx : Option Nat := none
deriving DecidableEq, Repr

/-- A suffix of a token. -/
structure Suf where
  type : TT
  flags : Flags := {}
deriving DecidableEq, Repr

/-- A token. Nothing else of it is used, except that the flag `TOKEN_FLAG_BRANCH` is cleared along with the
branch, which is not modelled. -/
structure Tok where
  prefixes : List Pre
  suffixes : List Suf := []
deriving DecidableEq, Repr

/-- The loop of `is_guard_define`, cpp-include-guard.c:35-46. The character that is read before the length
is checked, at the end of the token, does not change what is returned. -/
def guardWords (s : List Char) (nwords : Nat) : Nat :=
  if h : s = [] then nwords
  else
    let nwords := nwords + (if s.takeWhile (fun c => !isSpace c) = [] then 0 else 1)
    if nwords > 2 then nwords
    else guardWords ((s.dropWhile fun c => !isSpace c).dropWhile isSpace) nwords
termination_by s.length
decreasing_by
  cases s with
  | nil => exact absurd rfl h
  | cons c s =>
    have h1 : ∀ (p : Char → Bool) (l : List Char), (l.dropWhile p).length ≤ l.length := fun p l =>
      (List.dropWhile_suffix p).length_le
    rw [List.dropWhile_cons]
    split
    · exact Nat.lt_of_le_of_lt (Nat.le_trans (h1 _ _) (h1 _ _)) (by simp)
    · next hc =>
      have hc : isSpace c = true := by simpa using hc
      rw [List.dropWhile_cons, if_pos hc]
      exact Nat.lt_of_le_of_lt (h1 _ _) (by simp)

/-- `is_guard_define`, cpp-include-guard.c:27-49. -/
def isGuardDefine (s : List Char) : Bool := guardWords s 0 == 2

/-- `toupper` in the C locale. -/
def toUpper (c : Char) : Char := if 'a' ≤ c ∧ c ≤ 'z' then Char.ofNat (c.toNat - 32) else c

/-- `path_to_guard`, cpp-include-guard.c:51-73. `real` is what `realpath` gives. -/
def pathToGuard (real : Option (List Char)) (ncomponents : Nat) : Option (List Char) :=
  match real with
  | none => none
  | some p =>
    match Knfmt.Util.pathSlice p ncomponents with
    | none => none
    | some p => some (p.map fun c => if c = '.' ∨ c = '/' ∨ c = '-' then '_' else toUpper c)

/-- `struct include_guard_context`, cpp-include-guard.c:20-25: the addresses of the directives found. The
parents are the first token and the end of file. -/
structure Found where
  ifndef : Nat
  define : Nat
  endif : Nat
deriving DecidableEq, Repr

/-- `token_next` of a prefix. -/
def nextPre (ps : List Pre) (id : Nat) : Option Nat :=
  match ps with
  | [] => none
  | p :: ps => if p.id = id then ps.head?.map (·.id) else nextPre ps id

/-- What `sense_include_guards` comes to: there is nothing to do, or the guard that is there, if any, is
to be replaced. `null` is a dereferenced null pointer. -/
inductive Sense where
  | done
  | replace (old : Option Found)
  | null
deriving DecidableEq, Repr

/-- `sense_include_guards`, cpp-include-guard.c:75-111. `token_memcmp` returns zero for equal texts,
token.c:206-220. That the parent of a directive is the end of file is expressed as it being a
prefix of it. -/
def sense (ts : List Tok) (cppIfndef cppDefine cppEndif : List Char) : Sense :=
  match ts.head?, ts.getLast? with
  | some first, some eof =>
    match first.prefixes.find? (fun p => p.type = .cppIfndef) with
    | none => .replace none
    | some ifndef =>
      match first.prefixes.find? (fun p => p.type = .cppDefine) with
      | none => .replace none
      | some define =>
        if nextPre first.prefixes ifndef.id ≠ some define.id ∨ isGuardDefine define.text = false then .replace none
        else
          match ifndef.nx with
          | none => .null
          | some e =>
            match eof.prefixes.find? (fun p => p.id = e) with
            | none => .replace none
            | some endif =>
              if endif.type ≠ .cppEndif then .replace none
              else if ifndef.text = cppIfndef ∧ define.text = cppDefine ∧ endif.text = cppEndif then .done
              else .replace (some ⟨ifndef.id, define.id, endif.id⟩)
  | _, _ => .done

/-- `token_has_verbatim_line`, token.c:292-305, on the text in reverse. -/
def hasVerbatimLine : List Char → Nat → Bool
  | _, 0 => true
  | [], _ + 1 => false
  | c :: s, n + 1 => if c ≠ '\n' then false else hasVerbatimLine s n

/-- `emit_ifndef`, cpp-include-guard.c:134-168; `line` is the token emitted by `emit_line`. -/
def emitIfndef (ps : List Pre) (ifndef line : Pre) : List Pre :=
  let lead := ps.takeWhile fun p => p.type = .comment
  let rest := ps.dropWhile fun p => p.type = .comment
  match lead.getLast? with
  | none => ifndef :: ps
  | some comment =>
    if hasVerbatimLine comment.text.reverse 2 then lead ++ ifndef :: rest
    else lead ++ line :: ifndef :: rest

/-- `token_list_remove`, token.c:438-444. -/
def removePre (id : Nat) (ps : List Pre) : List Pre := ps.filter fun p => p.id ≠ id

/-- `token_list_append_after`, token.c:431-436. -/
def appendAfter (id : Nat) (q : Pre) : List Pre → List Pre
  | [] => []
  | p :: ps => if p.id = id then p :: q :: ps else p :: appendAfter id q ps

/-- `token_trim`, token.c:61-81. -/
def trim (t : Tok) : Tok :=
  { t with suffixes := t.suffixes.map fun s =>
      if s.flags.optspace then s
      else if s.type = .space then { s with flags := { s.flags with discard := true } }
      else s }

/-- A change of the prefixes of a token. -/
def Tok.modify (f : List Pre → List Pre) (t : Tok) : Tok := { t with prefixes := f t.prefixes }

/-- A change of the first token. -/
def onFirst (f : List Pre → List Pre) : List Tok → List Tok
  | [] => []
  | t :: ts => t.modify f :: ts

/-- A change of the last token. -/
def onLast (f : List Pre → List Pre) : List Tok → List Tok
  | [] => []
  | [t] => [t.modify f]
  | t :: u :: ts => t :: onLast f (u :: ts)

/-- `ensure_line`, cpp-include-guard.c:170-187. -/
def ensureLine (line : Pre) : List Tok → List Tok
  | [] => []
  | [t] => [t.modify fun ps =>
      match ps.getLast? with
      | none => ps ++ [line]
      | some last => if hasVerbatimLine last.text.reverse 2 then ps else ps ++ [line]]
  | [t, u] =>
    match u.prefixes.getLast? with
    | none => [trim t, u.modify (· ++ [line])]
    | some last => [t, u.modify fun ps => if hasVerbatimLine last.text.reverse 2 then ps else ps ++ [line]]
  | t :: u :: v :: ts => t :: ensureLine line (u :: v :: ts)

/-- `cpp_include_guard`, cpp-include-guard.c:189-240, from line 217 on. `n` is the first unused address. -/
def replace (guard : List Char) (n : Nat) (old : Option Found) (ts : List Tok) : List Tok :=
  let ifndef : Pre := ⟨n, .cpp, "#ifndef ".toList ++ guard ++ "\n".toList, none⟩
  let define : Pre := ⟨n + 2, .cppDefine, "#define ".toList ++ guard ++ "\n\n".toList, none⟩
  let endif : Pre := ⟨n + 4, .cpp, "#endif /* !".toList ++ guard ++ " */\n".toList, none⟩
  let ts := match old with
    | none => ts
    | some c => onFirst (removePre c.ifndef) ts
  let ts := onFirst (fun ps => emitIfndef ps ifndef ⟨n + 1, .space, ['\n'], none⟩) ts
  let ts := match old with
    | none => ts
    | some c => onFirst (removePre c.define) ts
  let ts := onFirst (appendAfter n define) ts
  let ts := match old with
    | none => ensureLine ⟨n + 3, .space, ['\n'], none⟩ ts
    | some c => onLast (removePre c.endif) ts
  onLast (· ++ [endif]) ts

/-- `cpp_include_guard`, cpp-include-guard.c:189-240. `none` is a dereferenced null pointer. -/
def includeGuard (setting : Nat) (path : List Char) (real : Option (List Char)) (n : Nat) (ts : List Tok) :
    Option (List Tok) :=
  if setting = 0 then some ts
  else if Knfmt.Util.isPathHeader path = false then some ts
  else
    match pathToGuard real setting with
    | none => some ts
    | some guard =>
      match sense ts ("#ifndef ".toList ++ guard ++ "\n".toList) ("#define ".toList ++ guard ++ "\n\n".toList)
          ("#endif /* !".toList ++ guard ++ " */\n".toList) with
      | .done => some ts
      | .null => none
      | .replace old => some (replace guard n old ts)

end Knfmt.Guard
