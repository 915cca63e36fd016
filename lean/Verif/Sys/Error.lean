/-!
# error.c: diagnostics, and when they are written

`lexer_error`, lexer.c:288-334, `parser_exec`, parser.c:120-173 and `parser_reset`, parser.c:307-321
are modelled as far as the diagnostics are concerned.
-/
namespace Knfmt.Diag

/-- `struct error`, error.c:11-14, and what was written to the standard error stream. -/
structure Err where
  buf : List Char := []
  flush : Bool := false
  out : List Char := []
deriving DecidableEq, Repr

/-- A text up to the first NUL, as printed by `%s` and `%.*s`. -/
def cstr (s : List Char) : List Char := s.takeWhile (· ≠ '\x00')

/-- `error_reset`, error.c:39-43. -/
def reset (er : Err) : Err := { er with buf := [] }

/-- `error_flush`, error.c:45-57. -/
def errorFlush (er : Err) (force : Bool) : Err :=
  if !force && !er.flush then er
  else reset (if er.buf.length > 0 then { er with out := er.out ++ cstr er.buf } else er)

/-- A diagnostic as made by `lexer_error`, lexer.c:304-331: the path, the line number, the message,
the function and line if tracing is enabled, the line and its column and width if it could be found. -/
structure Msg where
  path : List Char
  lno : Nat
  text : List Char
  trace : Option (List Char × Nat) := none
  context : Option (List Char × Nat × Nat) := none
deriving DecidableEq, Repr

/-- The text put in the buffer by `lexer_error`, lexer.c:304-331. The message is the result of a
`printf`. -/
def Msg.render (m : Msg) : List Char :=
  cstr m.path ++ [':'] ++ (toString m.lno).toList ++ [':', ' '] ++ cstr m.text ++
  (match m.trace with
    | none => []
    | some (f, l) => [' ', '['] ++ cstr f ++ [':'] ++ (toString l).toList ++ [']']) ++ ['\n'] ++
  (match m.context with
    | none => []
    | some (line, cno, w) =>
      cstr line ++ List.replicate (cno - 1) ' ' ++ List.replicate w '^' ++ ['\n'])

/-- `lexer_error`, lexer.c:288-334; the text is dropped while peeking. -/
def lexerError (er : Err) (peek : Bool) (m : Msg) : Err :=
  if peek then er else errorFlush { er with buf := er.buf ++ m.render } false

/-- What can happen to the diagnostics. -/
inductive Op where
  | error (peek : Bool) (m : Msg)
  | flush
  | reset
deriving DecidableEq, Repr

/-- One step: `lexer_error`, `lexer_error_flush` and `lexer_error_reset`, lexer.c:288-346. -/
def step (er : Err) : Op → Err
  | .error peek m => lexerError er peek m
  | .flush => errorFlush er true
  | .reset => reset er

/-- A history. -/
def run (er : Err) (ops : List Op) : Err := ops.foldl step er

/-- One round of the loop in `parser_exec`, parser.c:139-170: what it reports and how it ends. -/
inductive Ending where
  | good
  /-- `clang_branch` or `clang_recover` found a way to continue. -/
  | recovered
  /-- They did not. -/
  | failed
deriving DecidableEq, Repr

/-- The loop of `parser_exec`, parser.c:139-173: the rounds up to the end of the file, or up to the
first one that failed. -/
def parserExec (er : Err) : List (List (Bool × Msg) × Ending) → Err
  | [] => er
  | (ms, e) :: rs =>
    let er := ms.foldl (fun er m => lexerError er m.1 m.2) er
    match e with
    | .good => parserExec er rs
    | .recovered => parserExec (reset er) rs
    | .failed => errorFlush er true

namespace Spec

/-- A flush or a reset. -/
def isBarrier : Op → Bool
  | .error _ _ => false
  | .flush => true
  | .reset => true

/-- The diagnostics of a history that are written: those not raised while peeking, in order, if
diagnostics are written at once, or if the first flush or reset that follows is a flush. -/
def Shown (now : Bool) : List Op → List Msg
  | [] => []
  | .error peek m :: ops =>
    if peek = false ∧ (now = true ∨ ops.find? isBarrier = some .flush) then m :: Shown now ops else Shown now ops
  | _ :: ops => Shown now ops

end Spec

theorem cstr_no (s : List Char) : '\x00' ∉ cstr s := by
  unfold cstr
  induction s with
  | nil => simp
  | cons c s ih =>
    rw [List.takeWhile_cons]
    split
    · next h =>
      simp only [decide_eq_true_eq] at h
      intro hm
      rcases List.mem_cons.mp hm with rfl | hm
      · exact h rfl
      · exact ih hm
    · simp

theorem cstr_self {s : List Char} (h : '\x00' ∉ s) : cstr s = s := by
  unfold cstr
  induction s with
  | nil => rfl
  | cons c s ih =>
    rw [List.takeWhile_cons, if_pos, ih (fun hm => h (by simp [hm]))]
    simp only [decide_eq_true_eq]
    rintro rfl
    exact h (by simp)

theorem nat_no (n : Nat) : '\x00' ∉ (toString n).toList := by
  intro h
  have h : '\x00' ∈ (Nat.repr n).toList := h
  rw [Nat.toList_repr] at h
  have := Nat.isDigit_of_mem_toDigits (by omega) (by omega) h
  revert this
  decide

/-- A diagnostic has no NUL in it, it is never cut. -/
theorem render_no (m : Msg) : '\x00' ∉ m.render := by
  unfold Msg.render
  simp only [List.mem_append, not_or]
  refine ⟨⟨⟨⟨⟨⟨⟨cstr_no _, by decide⟩, nat_no _⟩, by decide⟩, cstr_no _⟩, ?_⟩, by decide⟩, ?_⟩
  · cases m.trace with
    | none => simp
    | some p =>
      simp only [List.mem_append, not_or]
      exact ⟨⟨⟨⟨by decide, cstr_no _⟩, by decide⟩, nat_no _⟩, by decide⟩
  · cases m.context with
    | none => simp
    | some p =>
      simp only [List.mem_append, not_or]
      refine ⟨⟨⟨cstr_no _, ?_⟩, ?_⟩, by decide⟩
      · intro h; exact absurd (List.eq_of_mem_replicate h) (by decide)
      · intro h; exact absurd (List.eq_of_mem_replicate h) (by decide)

theorem flush_out (er : Err) (h : '\x00' ∉ er.buf) :
    errorFlush er true = { er with buf := [], out := er.out ++ er.buf } := by
  unfold errorFlush reset
  simp only [Bool.not_true, Bool.false_and]
  rw [if_neg (by simp)]
  split
  · simp only [cstr_self h]
  · next hl =>
    have : er.buf = [] := by
      rcases hb : er.buf with _ | ⟨c, b⟩
      · rfl
      · rw [hb] at hl; simp at hl
    simp [this]

/-- The text of what is still in the buffer is written if the next flush or reset is a flush. -/
theorem run_out (ops : List Op) (er : Err) (hb : '\x00' ∉ er.buf) (hn : er.flush = true → er.buf = []) :
    (run er ops).out = er.out ++
      (if (ops.find? Spec.isBarrier) = some .flush then er.buf else []) ++
      (Spec.Shown er.flush ops).flatMap Msg.render := by
  induction ops generalizing er with
  | nil => simp [run, Spec.Shown]
  | cons op ops ih =>
    show (run (step er op) ops).out = _
    cases op with
    | flush =>
      have e : step er .flush = { er with buf := [], out := er.out ++ er.buf } := flush_out er hb
      rw [e, ih _ (by simp) (by simp)]
      simp [Spec.Shown, Spec.isBarrier]
    | reset =>
      have e : step er .reset = { er with buf := [] } := rfl
      rw [e, ih _ (by simp) (by simp)]
      simp [Spec.Shown, Spec.isBarrier]
    | error peek m =>
      cases peek with
      | true =>
        have e : step er (.error true m) = er := rfl
        rw [e, ih er hb hn]
        simp [Spec.Shown, Spec.isBarrier]
      | false =>
        have hb' : '\x00' ∉ er.buf ++ m.render := by
          simp only [List.mem_append, not_or]
          exact ⟨hb, render_no m⟩
        cases hf : er.flush with
        | true =>
          have e : step er (.error false m) = { er with buf := [], out := er.out ++ (er.buf ++ m.render) } := by
            show errorFlush { er with buf := er.buf ++ m.render } false = _
            unfold errorFlush
            rw [if_neg (by simp [hf])]
            have := flush_out { er with buf := er.buf ++ m.render } hb'
            unfold errorFlush at this
            rw [if_neg (by simp)] at this
            exact this
          rw [e, ih _ (by simp) (by simp)]
          have := hn hf
          simp [Spec.Shown, Spec.isBarrier, this, hf]
        | false =>
          have e : step er (.error false m) = { er with buf := er.buf ++ m.render } := by
            show errorFlush { er with buf := er.buf ++ m.render } false = _
            unfold errorFlush
            rw [if_pos (by simp [hf])]
          rw [e, ih _ hb' (by simp [hf])]
          simp only [Spec.Shown, List.find?_cons, Spec.isBarrier, hf]
          by_cases hx : ops.find? Spec.isBarrier = some .flush
          · simp [hx]
          · simp [hx]

/-- C47. For every history, what is written is the text of the diagnostics that are flushed, each one
once, in order and in full, and nothing else. -/
theorem diagnostics_shown (flush : Bool) (ops : List Op) :
    (run { flush := flush } ops).out = (Spec.Shown flush ops).flatMap Msg.render := by
  rw [run_out ops _ (by simp) (by simp)]
  simp

/-- The history of the rounds of the parser. -/
def history : List (List (Bool × Msg) × Ending) → List Op
  | [] => []
  | (ms, e) :: rs => ms.map (fun m => .error m.1 m.2) ++
    match e with
    | .good => history rs
    | .recovered => .reset :: history rs
    | .failed => [.flush]

theorem parserExec_history (rs : List (List (Bool × Msg) × Ending)) (er : Err) :
    parserExec er rs = run er (history rs) := by
  induction rs generalizing er with
  | nil => rfl
  | cons r rs ih =>
    obtain ⟨ms, e⟩ := r
    have hms : ∀ er : Err, ms.foldl (fun er m => lexerError er m.1 m.2) er =
        run er (ms.map fun m => .error m.1 m.2) := by
      intro er
      unfold run
      rw [List.foldl_map]
      rfl
    simp only [parserExec, history, hms]
    unfold run
    rw [List.foldl_append]
    cases e with
    | good => exact ih _
    | recovered => exact ih _
    | failed => rfl

theorem shown_error (ms : List (Bool × Msg)) (ops : List Op) :
    Spec.Shown false (ms.map (fun m => Op.error m.1 m.2) ++ ops) =
      (if (ops.find? Spec.isBarrier) = some .flush
        then (ms.filter (fun m => !m.1)).map (·.2) else []) ++ Spec.Shown false ops := by
  have hfind : ∀ ms : List (Bool × Msg),
      ((ms.map (fun m => Op.error m.1 m.2) ++ ops).find? Spec.isBarrier) =
        ops.find? Spec.isBarrier := by
    intro ms
    induction ms with
    | nil => rfl
    | cons m ms ih => simp only [List.map_cons, List.cons_append, List.find?_cons, Spec.isBarrier, ih]
  induction ms with
  | nil => simp
  | cons m ms ih =>
    simp only [List.map_cons, List.cons_append, Spec.Shown, hfind, ih]
    obtain ⟨p, m⟩ := m
    by_cases hx : ops.find? Spec.isBarrier = some .flush <;> cases p <;> simp [hx]

/-- C47, for the parser: let the rounds before the last one that was recovered from be `old`. If
parsing then reaches the end of the file nothing is written. If it fails, the diagnostics of the rounds
after `old` are written. Those of `old` are discarded in any case. -/
theorem parser_diagnostics (old new : List (List (Bool × Msg) × Ending))
    (ms : List (Bool × Msg)) (ho : ∀ r ∈ old, r.2 ≠ .failed)
    (hlast : ∀ r, old.getLast? = some r → r.2 = .recovered)
    (hnew : ∀ r ∈ new, r.2 = .good) :
    (parserExec {} (old ++ new)).out = [] ∧
    (parserExec {} (old ++ new ++ [(ms, .failed)])).out =
      (((new.flatMap (·.1) ++ ms).filter (fun m => !m.1)).map (·.2)).flatMap Msg.render := by
  have hgood : ∀ (new : List (List (Bool × Msg) × Ending)), (∀ r ∈ new, r.2 = .good) →
      ∀ tl, history (new ++ tl) = (new.flatMap (·.1)).map (fun m => Op.error m.1 m.2) ++ history tl := by
    intro new
    induction new with
    | nil => intro _ tl; rfl
    | cons r rs ih =>
      intro h tl
      obtain ⟨l, e⟩ := r
      have he : e = .good := h (l, e) (by simp)
      subst he
      simp only [List.cons_append, history, List.flatMap_cons, List.map_append]
      rw [ih (fun r hr => h r (by simp [hr])) tl]
      simp
  have hend : ∀ (new : List (List (Bool × Msg) × Ending)), (∀ r ∈ new, r.2 = .good) →
      Spec.Shown false (history new) = [] := by
    intro new h
    have := hgood new h []
    simp only [List.append_nil, history] at this
    rw [this]
    have h2 := shown_error (new.flatMap (·.1)) []
    rw [List.append_nil] at h2
    rw [h2]
    simp [Spec.Shown]
  have hold : ∀ (old tl : List (List (Bool × Msg) × Ending)), (∀ r ∈ old, r.2 ≠ .failed) →
      (∀ r, old.getLast? = some r → r.2 = .recovered) →
      Spec.Shown false (history (old ++ tl)) = Spec.Shown false (history tl) ∧
      (old ≠ [] → ((history (old ++ tl)).find? Spec.isBarrier) = some .reset) := by
    intro old tl
    induction old with
    | nil => intro _ _; simp
    | cons r rs ih =>
      intro h1 h2
      obtain ⟨l, e⟩ := r
      have hfind : ∀ (ms : List (Bool × Msg)) (ops : List Op),
          ((ms.map (fun m => Op.error m.1 m.2) ++ ops).find? Spec.isBarrier) =
            ops.find? Spec.isBarrier := by
        intro ms ops
        induction ms with
        | nil => rfl
        | cons m ms ih => simp only [List.map_cons, List.cons_append, List.find?_cons, Spec.isBarrier, ih]
      have hrest := ih (fun r hr => h1 r (by simp [hr])) (by
        intro r hr
        cases rs with
        | nil => simp at hr
        | cons a b => exact h2 r (by rw [List.getLast?_cons_cons]; exact hr))
      simp only [List.cons_append, history]
      cases e with
      | failed => exact absurd rfl (h1 (l, .failed) (by simp))
      | recovered =>
        dsimp only
        rw [shown_error, hfind]
        refine ⟨?_, fun _ => rfl⟩
        simp only [List.find?_cons, Spec.isBarrier, Spec.Shown]
        rw [hrest.1]
        simp
      | good =>
        dsimp only
        have hne : rs ≠ [] := by
          rintro rfl
          have := h2 (l, .good) (by simp)
          simp at this
        rw [shown_error, hfind, hrest.2 hne]
        exact ⟨by rw [if_neg (by simp), hrest.1]; rfl, fun _ => rfl⟩
  constructor
  · rw [parserExec_history, diagnostics_shown false, (hold old new ho hlast).1, hend new hnew]
    rfl
  · rw [parserExec_history, diagnostics_shown false, List.append_assoc, (hold old _ ho hlast).1,
      hgood new hnew]
    simp only [history]
    rw [← List.append_assoc, ← List.map_append, shown_error]
    simp [Spec.Shown, Spec.isBarrier]

/-- A round that is recovered from and one that fails: only the diagnostics of the second are written. -/
example :
    let m (s : String) : Msg := { path := "a.c".toList, lno := 1, text := s.toList }
    (parserExec {} [([(false, m "x")], .recovered), ([], .good), ([(true, m "y"), (false, m "z")], .failed)]).out =
      "a.c:1: z\n".toList := by decide +kernel

example :
    let m (s : String) : Msg := { path := "a.c".toList, lno := 1, text := s.toList }
    Spec.Shown false [.error false (m "x"), .reset, .error false (m "y"), .error true (m "p"), .flush,
      .error false (m "z")] = [m "y"] := by decide +kernel

end Knfmt.Diag
