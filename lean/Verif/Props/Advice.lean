import Verif.Proofs.Repair
import Verif.Props.Macro

/-!
# Layout errors name the right fix
-/

set_option autoImplicit false

namespace Genco.Props

open Spec Spec.MacroFile Spec.Advice Macro

variable {ι E : Type}

/-- A host for quotes that copy no code. -/
def plainHost : Host ι E Unit where
  value _ _ := []
  scope _ _ := []
  iter _ _ _ := []
  test _ _ := none
  pick _ _ _ _ := none
  bind _ _ _ := ()

theorem accepted_iff (ts : List Tok) :
    (∃ r ss, Macro.quote (ι := ι) (E := E) none (tokens ts) = .ok (r, ss)) ↔ Follow [] ts := by
  obtain ⟨h1, h2⟩ := tokens_accepted (ι := ι) (E := E) plainHost ts
  exact ⟨fun ⟨r, ss, h⟩ => (h2 r ss h).1, fun h => by
    obtain ⟨ss, hs⟩ := h1 h
    exact ⟨false, ss, hs⟩⟩

/-- C101. An error about indentation is about the first token that cannot stay where it is. It names a
column. A line that begins there is accepted instead, whatever is on it. The column is the first one at
which that holds, looking from the token in the direction asked for. -/
theorem C101_column (ts : List Tok) (at' column : Nat)
    (h : Macro.quote (ι := ι) (E := E) none (tokens ts) = .error (.indentation at' column)) :
    ∃ a t b, ts = a ++ t :: b ∧ t.1.start.column = at' ∧
      (∃ r ss, Macro.quote (ι := ι) (E := E) none (tokens a) = .ok (r, ss)) ∧
      (∀ u l, u.1.start = ⟨t.1.start.line, column⟩ → Goes u.1.stop l →
        ∃ r ss, Macro.quote (ι := ι) (E := E) none (tokens (a ++ u :: l)) = .ok (r, ss)) ∧
      (column < at' ∧ (∀ u l x, u.1.start = ⟨t.1.start.line, x⟩ → column < x → x ≤ at' →
          ∃ e, Macro.quote (ι := ι) (E := E) none (tokens (a ++ u :: l)) = .error e) ∨
       at' < column ∧ (∀ u l x, u.1.start = ⟨t.1.start.line, x⟩ → x < column →
          ∃ e, Macro.quote (ι := ι) (E := E) none (tokens (a ++ u :: l)) = .error e)) := by
  obtain ⟨a, t, b, rfl, hf, z, r, q, qs, hs, hl, ⟨-, hx⟩ | ⟨h1, h2, c, hx, hm, hn, ha⟩⟩ := quote_error ts _ h
  · cases hx
  cases hx
  have follows : ∀ u l, Follow [] (a ++ u :: l) ↔ Follow [] a ∧ Follows u (z :: r) ∧ Follow (u :: z :: r) l := by
    intro u l
    rw [follow_append, List.append_nil, hs]; rfl
  have bad : ∀ (u : Tok) (l : List Tok) (x : Nat), u.1.start = ⟨t.1.start.line, x⟩ → x < q →
      x ∉ enclosing q qs → ∃ e, Macro.quote (ι := ι) (E := E) none (tokens (a ++ u :: l)) = .error e := by
    intro u l x hu hq hn
    cases hk : Macro.quote (ι := ι) (E := E) none (tokens (a ++ u :: l)) with
    | error e => exact ⟨e, rfl⟩
    | ok o =>
      have := ((follows u l).1 ((accepted_iff _).1 ⟨o.1, o.2, hk⟩)).2.1
      rw [follows_later u z r q qs hl (by rw [hu]; exact h1), hu] at this
      rcases this with (h | h | h) | h
      · have h : q < x := h
        omega
      · have h : x = q := h
        omega
      · exact absurd h hn
      · rw [h.2] at hm; cases hm
  have lt : ∀ x ∈ enclosing q qs, x < q := fun x hx => enclosing_lt q qs x hx
  refine ⟨a, t, b, rfl, rfl, (accepted_iff a).2 hf, fun u l hu hg => ?_, ?_⟩
  · refine (accepted_iff _).2 ((follows u l).2 ⟨hf, ?_, follow_goes l u _ hg⟩)
    rw [follows_later u z r q qs hl (by rw [hu]; exact h1), hu]
    exact .inl (.inr (.inr hm))
  · rcases ha with ⟨h3, h4⟩ | ⟨h3, h4⟩
    · refine .inl ⟨h3, fun u l x hu hx1 hx2 => bad u l x hu (by omega) fun hx => ?_⟩
      by_cases he : x = t.1.start.column
      · exact hn (he ▸ hx)
      · have := h4 x hx (by omega)
        omega
    · refine .inr ⟨h3, fun u l x hu hx => bad u l x hu (by have := lt column hm; omega) fun hx' => ?_⟩
      have := h4 x hx'
      omega

/-- C101. The message says how to get from the column of the token to the column named. -/
theorem C101_message (ts : List Tok) (at' column : Nat)
    (h : Macro.quote (ι := ι) (E := E) none (tokens ts) = .error (.indentation at' column)) :
    ∃ m, Err.message (.indentation at' column) = some m ∧ Moves m at' column := by
  obtain ⟨a, t, b, -, -, -, -, h1⟩ := C101_column ts at' column h
  refine ⟨_, rfl, message_moves at' column ?_⟩
  rcases h1 with h1 | h1 <;> omega

/-- C101. A message asks for one move only: it names the direction and how far. -/
theorem C101_clear (m : Str) (old new new' : Nat) (h : Moves m old new) (h' : Moves m old new') : new = new' :=
  moves_unique h h'

/-- Whether there is a given error. -/
def isError {α : Type} (at' column : Nat) : Except Err α → Bool
  | .error (.indentation a c) => a == at' && c == column
  | _ => false

theorem of_isError {α : Type} {at' column : Nat} {x : Except Err α} (h : isError at' column x = true) :
    x = .error (.indentation at' column) := by
  unfold isError at h
  split at h
  · simp at h; rw [h.1, h.2]
  · cases h

/-- Lines at columns 4, 8, 12 and one at 6. -/
def steps (c : Nat) : List Tok :=
  [MacroSample.tok 1 4 "a", MacroSample.tok 2 8 "b", MacroSample.tok 3 12 "c", MacroSample.tok 4 c "d",
    MacroSample.tok 5 0 "e"]

example : Macro.quote (ι := Str) (E := Str) none (tokens (steps 6)) = .error (.indentation 6 4) :=
  of_isError (by decide +kernel)

example : Err.message (.indentation 6 4) = some "expected 2 less spaces of indentation".toList := by decide +kernel

example : Macro.quote (ι := Str) (E := Str) none (tokens (steps 3)) = .error (.indentation 3 4) :=
  of_isError (by decide +kernel)

example : Err.message (.indentation 3 4) = some "expected 1 more space of indentation".toList := by decide +kernel

example : ∃ r ss, Macro.quote (ι := Str) (E := Str) none (tokens ((steps 4).take 4)) = .ok (r, ss) :=
  (accepted_iff _).2 ⟨trivial, .inr (by decide), .inr (by decide), .inr (by decide), trivial⟩

example : Moves "expected 12 less spaces of indentation".toList 16 4 := by
  have h := Moves.less (d := "12".toList) (.more (s := ['1']) (c := '2') (.one rfl) rfl) (by decide) 4
  simpa using h

/-- C101. The column named may be far away though another is near: at column 7, one column short of a
line above, the message asks for three less. -/
theorem C101_nearest_negative :
    Macro.quote (ι := Str) (E := Str) none (tokens (steps 7)) = .error (.indentation 7 4) ∧
    ∃ r ss, Macro.quote (ι := Str) (E := Str) none (tokens ((steps 8).take 4)) = .ok (r, ss) :=
  ⟨of_isError (by decide +kernel), (accepted_iff _).2 ⟨trivial, .inr (by decide), .inr (by decide), .inr (by decide), trivial⟩⟩

example : (steps 6).Pairwise (fun s t => s.1.stop.line ≤ t.1.start.line) := by decide

/-- C101. Tokens in the order of the text make no other error. -/
theorem C101_only (ts : List Tok) (e : Err) (h : Macro.quote (ι := ι) (E := E) none (tokens ts) = .error e)
    (ho : ts.Pairwise (fun s t => s.1.stop.line ≤ t.1.start.line)) : ∃ at' column, e = .indentation at' column := by
  obtain ⟨a, t, b, rfl, hf, z, r, q, qs, hs, hl, ⟨h1, -⟩ | ⟨h1, h2, c, hx, -⟩⟩ := quote_error ts _ h
  · have hz : z ∈ a := List.mem_reverse.1 (by rw [hs]; simp)
    have := (List.pairwise_append.1 ho).2.2 z hz t (by simp)
    omega
  · exact ⟨_, _, hx⟩

/-! ## Following the advice -/

section Repairs

variable (ι E) in
/-- The macro with these lines is accepted. -/
def Taken (line : Nat) (ls : List SrcLine) : Prop :=
  ∃ r ss, Macro.quote (ι := ι) (E := E) none (tokens (placeLines line ls)) = .ok (r, ss)

variable (ι E) in
/-- The macro is refused with a message, and the first line that is refused is moved as the message
asks for. Nothing else is changed. -/
def Repair (line : Nat) (ls ls' : List SrcLine) : Prop :=
  ∃ e m a l b c, Macro.quote (ι := ι) (E := E) none (tokens (placeLines line ls)) = .error e ∧
    e.message = some m ∧ ls = a ++ l :: b ∧ Taken ι E line a ∧ ¬ Taken ι E line (a ++ [l]) ∧
    Moves m l.column c ∧ ls' = a ++ { l with column := c } :: b

variable (ι E) in
/-- A number of such changes one after the other. -/
inductive Repairs (line : Nat) : Nat → List SrcLine → List SrcLine → Prop
  | none (ls : List SrcLine) : Repairs line 0 ls ls
  | more {k : Nat} {ls ls' ls'' : List SrcLine} (h : Repair ι E line ls ls') (hr : Repairs line k ls' ls'') :
      Repairs line (k + 1) ls ls''

theorem taken_iff (line : Nat) (ls : List SrcLine) : Taken ι E line ls ↔ KeepsTo [] ls := by
  rw [Taken, accepted_iff, follow_lines ls line [] trivial]; rfl

theorem taken_snoc (line : Nat) (a : List SrcLine) (l : SrcLine) :
    Taken ι E line (a ++ [l]) ↔ Taken ι E line a ∧ Fits l.column (a.map (·.column)).reverse := by
  rw [taken_iff, taken_iff, keeps_append, List.append_nil]
  exact ⟨fun h => ⟨h.1, h.2.1⟩, fun h => ⟨h.1, h.2, trivial⟩⟩

theorem taken_take (line : Nat) (a b : List SrcLine) (h : Taken ι E line (a ++ b)) : Taken ι E line a := by
  rw [taken_iff] at h ⊢
  exact ((keeps_append a b []).1 h).1

/-- What one change does. -/
theorem repair_spec (line : Nat) (ls ls' : List SrcLine) (h : Repair ι E line ls ls') :
    ∃ a l b c, ls = a ++ l :: b ∧ ls' = a ++ { l with column := c } :: b ∧ ¬ Taken ι E line (a ++ [l]) ∧
      Taken ι E line (a ++ [{ l with column := c }]) := by
  obtain ⟨e, m, a, l, b, c, h1, h2, rfl, h4, h5, h6, rfl⟩ := h
  have ha := (taken_iff line a).1 h4
  have hl : ¬ Fits l.column (a.map (·.column)).reverse := fun h => h5 ((taken_snoc line a l).2 ⟨h4, h⟩)
  obtain ⟨c', rfl, hne, hf⟩ := lines_error line a l b e h1 ha hl
  cases h2
  obtain rfl := moves_unique h6 (message_moves l.column c' hne)
  exact ⟨a, l, b, c, rfl, rfl, h5, (taken_snoc line a _).2 ⟨h4, hf⟩⟩

/-- C101. A macro that is refused has a message that can be followed. -/
theorem C101_helps (line : Nat) (ls : List SrcLine) (h : ¬ Taken ι E line ls) : ∃ ls', Repair ι E line ls ls' := by
  obtain ⟨a, l, b, rfl, ha, hl⟩ := not_keeps ls [] (fun h' => h ((taken_iff line ls).2 h'))
  rw [List.append_nil] at hl
  cases hq : Macro.quote (ι := ι) (E := E) none (tokens (placeLines line (a ++ l :: b))) with
  | ok o => exact absurd ⟨o.1, o.2, hq⟩ h
  | error e =>
    obtain ⟨c, rfl, hne, -⟩ := lines_error line a l b e hq ha hl
    exact ⟨_, _, _, a, l, b, c, hq, rfl, rfl, (taken_iff line a).2 ha,
      fun h' => hl ((taken_snoc line a l).1 h').2, message_moves _ _ hne, rfl⟩

theorem repairs_bound (line : Nat) (k : Nat) (ls ls' : List SrcLine) (h : Repairs ι E line k ls ls') :
    ls'.length = ls.length ∧ ∀ n, n ≤ ls.length → Taken ι E line (ls.take n) → n + k ≤ ls.length := by
  induction h with
  | none ls => exact ⟨rfl, fun n hn _ => hn⟩
  | more h _ ih =>
    obtain ⟨a, l, b, c, rfl, rfl, h1, h2⟩ := repair_spec line _ _ h
    obtain ⟨i1, i2⟩ := ih
    have hlen : (a ++ { l with column := c } :: b).length = (a ++ l :: b).length := by simp
    refine ⟨i1.trans hlen, fun n hn ht => ?_⟩
    have hna : n ≤ a.length := by
      by_contra hc
      refine h1 (taken_take line (a ++ [l]) (b.take (n - a.length - 1)) ?_)
      have e : (a ++ l :: b).take n = a ++ [l] ++ b.take (n - a.length - 1) := by
        rw [List.take_append, List.take_of_length_le (by omega), List.append_assoc]
        rw [show n - a.length = (n - a.length - 1) + 1 by omega]
        rfl
      rwa [← e]
    have := i2 (a.length + 1) (by simp) (by
      rw [List.take_append, List.take_of_length_le (by omega), show a.length + 1 - a.length = 1 by omega]
      exact h2)
    rw [hlen] at this
    omega

/-- C101. Doing what the messages ask for ends after fewer changes than there are lines, … -/
theorem C101_ends (line : Nat) (k : Nat) (l : SrcLine) (ls ls' : List SrcLine)
    (h : Repairs ι E line k (l :: ls) ls') : k ≤ ls.length := by
  have := (repairs_bound line k _ _ h).2 1 (by simp) ((taken_iff line _).2 ⟨trivial, trivial⟩)
  simp at this
  omega

/-- … and then the macro is accepted. -/
theorem C101_accepted (line : Nat) (ls : List SrcLine) :
    ∃ k ls', Repairs ι E line k ls ls' ∧ Taken ι E line ls' := by
  have key : ∀ (d : Nat) (ls : List SrcLine) (n : Nat), n ≤ ls.length → Taken ι E line (ls.take n) →
      ls.length ≤ n + d → ∃ k ls', Repairs ι E line k ls ls' ∧ Taken ι E line ls' := by
    intro d
    induction d with
    | zero =>
      intro ls n hn ht hd
      rw [List.take_of_length_le (by omega)] at ht
      exact ⟨0, ls, .none ls, ht⟩
    | succ d ih =>
      intro ls n hn ht hd
      by_cases hl : Taken ι E line ls
      · exact ⟨0, ls, .none ls, hl⟩
      obtain ⟨ls', hr⟩ := C101_helps line ls hl
      obtain ⟨a, l, b, c, rfl, rfl, h1, h2⟩ := repair_spec line _ _ hr
      have hna : n ≤ a.length := by
        by_contra hc
        refine h1 (taken_take line (a ++ [l]) (b.take (n - a.length - 1)) ?_)
        have e : (a ++ l :: b).take n = a ++ [l] ++ b.take (n - a.length - 1) := by
          rw [List.take_append, List.take_of_length_le (by omega), List.append_assoc]
          rw [show n - a.length = (n - a.length - 1) + 1 by omega]
          rfl
        rwa [← e]
      have hlen : (a ++ { l with column := c } :: b).length = (a ++ l :: b).length := by simp
      obtain ⟨k, ls', h3, h4⟩ := ih (a ++ { l with column := c } :: b) (a.length + 1) (by simp) (by
        rw [List.take_append, List.take_of_length_le (by omega), show a.length + 1 - a.length = 1 by omega]
        exact h2) (by rw [hlen]; omega)
      exact ⟨k + 1, ls', .more hr h3, h4⟩
  exact key ls.length ls 0 (by omega) ((taken_iff line _).2 trivial) (by omega)

/-- Lines at columns 4, 8, 12, 6, 9, 0: two of them have to be moved. -/
def crooked : List SrcLine :=
  [⟨0, 4, "a".toList, []⟩, ⟨0, 8, "b".toList, []⟩, ⟨1, 12, "c".toList, []⟩, ⟨0, 6, "d".toList, []⟩,
    ⟨0, 9, "e".toList, []⟩, ⟨0, 0, "f".toList, []⟩]

example : Macro.quote (ι := Str) (E := Str) none (tokens (placeLines 1 crooked)) = .error (.indentation 6 4) :=
  of_isError (by decide +kernel)

/-- The first change. -/
example : ¬ Taken Str Str 1 crooked := by
  rintro ⟨r, ss, h⟩
  have h' : Macro.quote (ι := Str) (E := Str) none (tokens (placeLines 1 crooked)) = .error (.indentation 6 4) :=
    of_isError (by decide +kernel)
  rw [h'] at h
  cases h

end Repairs

end Genco.Props
