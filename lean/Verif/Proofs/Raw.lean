import Verif.Proofs.EscapeIff

/-!
# Texts that are literals for themselves
-/

set_option autoImplicit false

namespace Genco
open Spec

variable {α : Type}

theorem hexExact_cut {k acc v : Nat} {r t : Str} (h : hexExact k acc r = some (v, t)) :
    ∃ p, r = p ++ t ∧ p.length = k := by
  induction k generalizing acc r with
  | zero =>
    simp only [hexExact, Option.some.injEq, Prod.mk.injEq] at h
    exact ⟨[], by simp [h.2], rfl⟩
  | succ k ih =>
    cases r with
    | nil => simp [hexExact] at h
    | cons c r =>
      simp only [hexExact] at h
      split at h
      · obtain ⟨p, h1, h2⟩ := ih h
        exact ⟨c :: p, by simp [h1], by simp [h2]⟩
      · cases h

theorem hexUpTo_cut {k cnt acc n v : Nat} {r t : Str} (h : hexUpTo k cnt acc r = (n, v, t)) :
    ∃ p, r = p ++ t ∧ n = cnt + p.length := by
  induction k generalizing cnt acc r with
  | zero =>
    simp only [hexUpTo, Prod.mk.injEq] at h
    exact ⟨[], by simp [h.2.2], by simp [h.1]⟩
  | succ k ih =>
    cases r with
    | nil =>
      simp only [hexUpTo, Prod.mk.injEq] at h
      exact ⟨[], by simp [h.2.2], by simp [h.1]⟩
    | cons c r =>
      simp only [hexUpTo] at h
      split at h
      · obtain ⟨p, h1, h2⟩ := ih h
        exact ⟨c :: p, by simp [h1], by simp [h2]; omega⟩
      · simp only [Prod.mk.injEq] at h
        exact ⟨[], by simp [h.2.2], by simp [h.1]⟩

theorem hexBraced_cut {k v : Nat} {r t : Str} (h : hexBraced k r = some (v, t)) :
    ∃ p, r = p ++ t ∧ 2 ≤ p.length := by
  unfold hexBraced at h
  split at h
  · cases h
  · rename_i n w u e
    simp only [Option.some.injEq, Prod.mk.injEq] at h
    obtain ⟨p, h1, h2⟩ := hexUpTo_cut e
    exact ⟨p ++ ['}'], by simp [h1, h.2], by simp; omega⟩
  · cases h

theorem utf16_len (c : Char) : 1 ≤ (utf16 c).length ∧ (utf16 c).length ≤ 2 := by
  unfold utf16
  split <;> simp

theorem bytes_len (c : Char) : 1 ≤ (bytes c).length ∧ (bytes c).length ≤ 4 := by
  have : (bytes c).length = c.utf8Size := by simp [bytes, String.length_utf8EncodeChar]
  rw [this]
  exact ⟨Char.utf8Size_pos c, Char.utf8Size_le_four c⟩

/-- Escapes are not shorter than what they stand for. -/
def Short (f : Char → List α) (e : Reader α) : Prop :=
  ∀ r o t, e r = some (o, t) → ∃ p, r = p ++ t ∧ o.length ≤ (p.flatMap f).length

theorem units_ge {f : Char → List α} (hf : ∀ c, 1 ≤ (f c).length) (p : Str) : p.length ≤ (p.flatMap f).length := by
  induction p with
  | nil => simp
  | cons c p ih =>
    have := hf c
    simp only [List.flatMap_cons, List.length_append, List.length_cons]
    omega

theorem Short.of {f : Char → List α} (hf : ∀ c, 1 ≤ (f c).length) {r t : Str} {o : List α}
    (h : ∃ p, r = p ++ t ∧ o.length ≤ p.length) : ∃ p, r = p ++ t ∧ o.length ≤ (p.flatMap f).length := by
  obtain ⟨p, h1, h2⟩ := h
  exact ⟨p, h1, Nat.le_trans h2 (units_ge hf p)⟩

theorem raw_aux (rd : Reader α) (f : Char → List α) (ok : Char → Bool) (hf : ∀ c, 1 ≤ (f c).length)
    (hraw : ∀ c r, c ≠ '\\' → rd (c :: r) = if ok c then some (f c, r) else none)
    (e : Reader α) (hesc : ∀ r, rd ('\\' :: r) = e r) (he : Short f e) (fuel : Nat) (s : Str) (v : List α)
    (h : readAll rd fuel s = some v) :
    v.length ≤ (s.flatMap f).length ∧
      (v.length = (s.flatMap f).length → ∀ c ∈ s, c ≠ '\\' ∧ ok c = true) := by
  induction fuel generalizing s v with
  | zero =>
    cases s with
    | nil => simp only [readAll, Option.some.injEq] at h; subst h; simp
    | cons c s => simp [readAll] at h
  | succ fuel ih =>
    cases s with
    | nil => simp only [readAll, Option.some.injEq] at h; subst h; simp
    | cons c s =>
      simp only [readAll] at h
      cases hr : rd (c :: s) with
      | none => rw [hr] at h; simp at h
      | some q =>
        obtain ⟨o, t⟩ := q
        rw [hr] at h
        simp only [Option.map_eq_some_iff] at h
        obtain ⟨w, hw, rfl⟩ := h
        obtain ⟨i1, i2⟩ := ih t w hw
        by_cases hc : c = '\\'
        · subst hc
          rw [hesc] at hr
          obtain ⟨p, h1, h2⟩ := he _ _ _ hr
          subst h1
          have := hf '\\'
          simp only [List.flatMap_cons, List.flatMap_append, List.length_append]
          refine ⟨by omega, fun h => by omega⟩
        · rw [hraw c s hc] at hr
          split at hr
          · rename_i hk
            simp only [Option.some.injEq, Prod.mk.injEq] at hr
            obtain ⟨rfl, rfl⟩ := hr
            simp only [List.flatMap_cons, List.length_append]
            refine ⟨by omega, fun h => ?_⟩
            intro d hd
            rcases List.mem_cons.mp hd with rfl | hd
            · exact ⟨hc, hk⟩
            · exact i2 (by omega) d hd
          · cases hr

/-- A text is a literal for itself exactly if it has neither escapes nor characters that have to be
escaped. -/
theorem raw_iff (rd : Reader α) (f : Char → List α) (ok : Char → Bool) (hf : ∀ c, 1 ≤ (f c).length)
    (hraw : ∀ c r, c ≠ '\\' → rd (c :: r) = if ok c then some (f c, r) else none)
    (e : Reader α) (hesc : ∀ r, rd ('\\' :: r) = e r) (he : Short f e) (s : Str) :
    decode rd s = some (s.flatMap f) ↔ ∀ c ∈ s, c ≠ '\\' ∧ ok c = true := by
  constructor
  · intro h
    exact (raw_aux rd f ok hf hraw e hesc he _ _ _ h).2 rfl
  · intro h
    have := decode_flatMap rd (fun c => [c]) f (by simp) s (fun p c r hs => by
      obtain ⟨h1, h2⟩ := h c (by rw [hs]; simp)
      show rd (c :: _) = _
      rw [hraw c _ h1, if_pos h2]; rfl)
    rwa [show s.flatMap (fun c => [c]) = s from by simp] at this

/-! ## The escapes of the languages -/

theorem simple_short {f : Char → List α} (hf : ∀ c, 1 ≤ (f c).length) {c : Char} {r t : Str} {o : List α}
    {x : Option Nat} {g : Nat → α} (h : x.map (fun v => ([g v], r)) = some (o, t)) :
    ∃ p, c :: r = p ++ t ∧ o.length ≤ (p.flatMap f).length := by
  simp only [Option.map_eq_some_iff, Prod.mk.injEq] at h
  obtain ⟨v, -, h1, h2⟩ := h
  exact Short.of hf ⟨[c], by simp [h2], by simp [← h1]⟩

theorem hex_short {f : Char → List α} (hf : ∀ c, 1 ≤ (f c).length) {c : Char} {r t : Str} {o : List α} {k : Nat}
    {g : Nat × Str → Option (List α × Str)} (h : (hexExact k 0 r).bind g = some (o, t))
    (hg : ∀ v u o t, g (v, u) = some (o, t) → t = u ∧ o.length ≤ k + 1) :
    ∃ p, c :: r = p ++ t ∧ o.length ≤ (p.flatMap f).length := by
  simp only [Option.bind_eq_some_iff] at h
  obtain ⟨⟨v, u⟩, h1, h2⟩ := h
  obtain ⟨p, e1, e2⟩ := hexExact_cut h1
  obtain ⟨rfl, h3⟩ := hg _ _ _ _ h2
  exact Short.of hf ⟨c :: p, by simp [e1], by simp; omega⟩

theorem braced_short {f : Char → List α} (hf : ∀ c, 1 ≤ (f c).length) {c : Char} {r t : Str} {o : List α} {k : Nat}
    {g : Nat × Str → Option (List α × Str)} (h : (hexBraced k r).bind g = some (o, t))
    (hg : ∀ v u o t, g (v, u) = some (o, t) → t = u ∧ o.length ≤ 4) :
    ∃ p, c :: '{' :: r = p ++ t ∧ o.length ≤ (p.flatMap f).length := by
  simp only [Option.bind_eq_some_iff] at h
  obtain ⟨⟨v, u⟩, h1, h2⟩ := h
  obtain ⟨p, e1, e2⟩ := hexBraced_cut h1
  obtain ⟨rfl, h3⟩ := hg _ _ _ _ h2
  exact Short.of hf ⟨c :: '{' :: p, by simp [e1], by simp; omega⟩

theorem self_short {f : Char → List α} {c : Char} {r t : Str} {o : List α} (h : some (f c, r) = some (o, t)) :
    ∃ p, c :: r = p ++ t ∧ o.length ≤ (p.flatMap f).length := by
  simp only [Option.some.injEq, Prod.mk.injEq] at h
  exact ⟨[c], by simp [h.2], by simp [h.1]⟩

theorem single_len (c : Char) : 1 ≤ [c].length := Nat.le_refl _

theorem scalar_one {x : Nat} {u t : Str} {o : List Char} {n : Nat} (hn : 1 ≤ n)
    (h : (scalar x).map (fun c => ([c], u)) = some (o, t)) : t = u ∧ o.length ≤ n := by
  simp only [Option.map_eq_some_iff, Prod.mk.injEq] at h
  obtain ⟨c, -, h1, h2⟩ := h
  exact ⟨h2.symm, by simp [← h1, hn]⟩

theorem scalar_utf16 {x : Nat} {u t : Str} {o : List Nat} {n : Nat} (hn : 2 ≤ n)
    (h : (scalar x).map (fun c => (utf16 c, u)) = some (o, t)) : t = u ∧ o.length ≤ n := by
  simp only [Option.map_eq_some_iff, Prod.mk.injEq] at h
  obtain ⟨c, -, h1, h2⟩ := h
  exact ⟨h2.symm, by have := (utf16_len c).2; rw [← h1]; omega⟩

theorem scalar_bytes {x : Nat} {u t : Str} {o : List UInt8} {n : Nat} (hn : 4 ≤ n)
    (h : (scalar x).map (fun c => (bytes c, u)) = some (o, t)) : t = u ∧ o.length ≤ n := by
  simp only [Option.map_eq_some_iff, Prod.mk.injEq] at h
  obtain ⟨c, -, h1, h2⟩ := h
  exact ⟨h2.symm, by have := (bytes_len c).2; rw [← h1]; omega⟩

theorem unit_one {β : Type} {u t : Str} {o : List β} {x : β} {n : Nat} (hn : 1 ≤ n)
    (h : some ([x], u) = some (o, t)) : t = u ∧ o.length ≤ n := by
  simp only [Option.some.injEq, Prod.mk.injEq] at h
  exact ⟨h.2.symm, by simp [← h.1, hn]⟩

theorem map_bind {β γ : Type} (x : Option β) (g : β → γ) : x.map g = x.bind (fun v => some (g v)) := by
  cases x <;> rfl

theorem short_swift : Short (fun c => [c]) swiftEscape := by
  intro r o t h
  cases r with
  | nil => simp [swiftEscape] at h
  | cons c r =>
    simp only [swiftEscape] at h
    split at h
    · split at h
      · exact braced_short single_len h (fun v u o t h => scalar_one (by omega) h)
      · cases h
    · exact simple_short single_len h

theorem short_python : Short (fun c => [c]) pythonEscape := by
  intro r o t h
  cases r with
  | nil => simp [pythonEscape] at h
  | cons c r =>
    simp only [pythonEscape] at h
    split at h
    · exact hex_short single_len h (fun v u o t h => scalar_one (by omega) h)
    split at h
    · exact hex_short single_len h (fun v u o t h => scalar_one (by omega) h)
    split at h
    · exact hex_short single_len h (fun v u o t h => scalar_one (by omega) h)
    · exact simple_short single_len h

theorem short_js : Short utf16 jsEscape := by
  intro r o t h
  have hf : ∀ c, 1 ≤ (utf16 c).length := fun c => (utf16_len c).1
  cases r with
  | nil => simp [jsEscape] at h
  | cons c r =>
    simp only [jsEscape] at h
    split at h
    · rw [map_bind] at h
      exact hex_short hf h (fun v u o t h => unit_one (by omega) h)
    split at h
    · split at h
      · exact braced_short hf h (fun v u o t h => scalar_utf16 (by omega) h)
      · rw [map_bind] at h
        exact hex_short hf h (fun v u o t h => unit_one (by omega) h)
    split at h
    · split at h
      · split at h
        · cases h
        · simp only [Option.some.injEq, Prod.mk.injEq] at h
          exact Short.of hf ⟨[c], by simp [← h.2], by simp [← h.1]⟩
      · simp only [Option.some.injEq, Prod.mk.injEq] at h
        exact Short.of hf ⟨[c], by simp [← h.2], by simp [← h.1]⟩
    split at h
    · cases h
    split at h
    · cases h
    · split at h
      · simp only [Option.some.injEq, Prod.mk.injEq] at h
        exact Short.of hf ⟨[c], by simp [← h.2], by simp [← h.1]⟩
      · exact self_short h

theorem short_dart : Short utf16 dartEscape := by
  intro r o t h
  have hf : ∀ c, 1 ≤ (utf16 c).length := fun c => (utf16_len c).1
  cases r with
  | nil => simp [dartEscape] at h
  | cons c r =>
    simp only [dartEscape] at h
    split at h
    · rw [map_bind] at h
      exact hex_short hf h (fun v u o t h => unit_one (by omega) h)
    split at h
    · split at h
      · exact braced_short hf h (fun v u o t h => scalar_utf16 (by omega) h)
      · rw [map_bind] at h
        exact hex_short hf h (fun v u o t h => unit_one (by omega) h)
    split at h
    · cases h
    · split at h
      · simp only [Option.some.injEq, Prod.mk.injEq] at h
        exact Short.of hf ⟨[c], by simp [← h.2], by simp [← h.1]⟩
      · exact self_short h

theorem short_csharp : Short utf16 csharpEscape := by
  intro r o t h
  have hf : ∀ c, 1 ≤ (utf16 c).length := fun c => (utf16_len c).1
  cases r with
  | nil => simp [csharpEscape] at h
  | cons c r =>
    simp only [csharpEscape] at h
    split at h
    · split at h
      · cases h
      · rename_i n v u e
        simp only [Option.some.injEq, Prod.mk.injEq] at h
        obtain ⟨p, h1, h2⟩ := hexUpTo_cut e
        exact Short.of hf ⟨c :: p, by simp [h1, h.2], by simp [← h.1]⟩
    split at h
    · rw [map_bind] at h
      exact hex_short hf h (fun v u o t h => unit_one (by omega) h)
    split at h
    · exact hex_short hf h (fun v u o t h => scalar_utf16 (by omega) h)
    · exact simple_short hf h

theorem short_go : Short bytes goEscape := by
  intro r o t h
  have hf : ∀ c, 1 ≤ (bytes c).length := fun c => (bytes_len c).1
  cases r with
  | nil => simp [goEscape] at h
  | cons c r =>
    simp only [goEscape] at h
    split at h
    · rw [map_bind] at h
      exact hex_short hf h (fun v u o t h => unit_one (by omega) h)
    split at h
    · exact hex_short hf h (fun v u o t h => scalar_bytes (by omega) h)
    split at h
    · exact hex_short hf h (fun v u o t h => scalar_bytes (by omega) h)
    · exact simple_short hf h

theorem short_c : Short bytes cEscape := by
  intro r o t h
  have hf : ∀ c, 1 ≤ (bytes c).length := fun c => (bytes_len c).1
  cases r with
  | nil => simp [cEscape] at h
  | cons c r =>
    simp only [cEscape] at h
    split at h
    · split at h
      · cases h
      · rename_i n v u e
        split at h
        · simp only [Option.some.injEq, Prod.mk.injEq] at h
          obtain ⟨p, h1, h2⟩ := hexUpTo_cut e
          exact Short.of hf ⟨c :: p, by simp [h1, h.2], by simp [← h.1]⟩
        · cases h
    split at h
    · refine hex_short hf h (fun v u o t h => ?_)
      simp only at h
      split at h
      · cases h
      · exact scalar_bytes (by omega) h
    split at h
    · refine hex_short hf h (fun v u o t h => ?_)
      simp only at h
      split at h
      · cases h
      · exact scalar_bytes (by omega) h
    · exact simple_short hf h

/-! ## Nix -/

theorem nix_raw_aux (fuel : Nat) (s : Str) (v : List UInt8) (h : readAll nixReader fuel s = some v) :
    v.length ≤ (s.flatMap bytes).length ∧
      (v.length = (s.flatMap bytes).length → '\\' ∉ s ∧ '"' ∉ s ∧ opensCode s = false) := by
  induction fuel generalizing s v with
  | zero =>
    cases s with
    | nil => simp only [readAll, Option.some.injEq] at h; subst h; simp [opensCode]
    | cons c s => simp [readAll] at h
  | succ fuel ih =>
    cases s with
    | nil => simp only [readAll, Option.some.injEq] at h; subst h; simp [opensCode]
    | cons c s =>
      simp only [readAll] at h
      cases hr : nixReader (c :: s) with
      | none => rw [hr] at h; simp at h
      | some q =>
        obtain ⟨o, t⟩ := q
        rw [hr] at h
        simp only [Option.map_eq_some_iff] at h
        obtain ⟨w, hw, rfl⟩ := h
        obtain ⟨i1, i2⟩ := ih t w hw
        have hd : bytes '$' = [36] := by decide +kernel
        have hb := (bytes_len '\\').1
        simp only [nixReader] at hr
        split at hr
        · rename_i hc
          subst hc
          cases s with
          | nil => simp at hr
          | cons e r =>
            have he := (bytes_len e).1
            have key : t = r ∧ o.length ≤ (bytes e).length := by
              simp only at hr
              split at hr
              · exact unit_one he hr
              split at hr
              · exact unit_one he hr
              split at hr
              · exact unit_one he hr
              · simp only [Option.some.injEq, Prod.mk.injEq] at hr
                exact ⟨hr.2.symm, by simp [hr.1]⟩
            obtain ⟨rfl, k⟩ := key
            simp only [List.flatMap_cons, List.length_append]
            exact ⟨by omega, fun h => by omega⟩
        split at hr
        · rename_i hn hc
          subst hc
          cases s with
          | nil =>
            simp only [Option.some.injEq, Prod.mk.injEq] at hr
            obtain ⟨rfl, rfl⟩ := hr
            simp only [List.flatMap_cons, List.length_append, hd, List.flatMap_nil, List.length_nil] at i1 ⊢
            refine ⟨by omega, fun _ => ?_⟩
            simp [opensCode]
          | cons e r =>
            simp only at hr
            split at hr
            · cases hr
            · split at hr
              · rename_i h1 h2
                subst h2
                simp only [Option.some.injEq, Prod.mk.injEq] at hr
                obtain ⟨rfl, rfl⟩ := hr
                simp only [List.flatMap_cons, List.length_append, hd, List.length_cons, List.length_nil]
                refine ⟨by omega, fun h => ?_⟩
                obtain ⟨j1, j2, j3⟩ := i2 (by omega)
                refine ⟨by simp [j1], by simp [j2], ?_⟩
                rw [opensCode]; exact j3
              · rename_i h1 h2
                simp only [Option.some.injEq, Prod.mk.injEq] at hr
                obtain ⟨rfl, rfl⟩ := hr
                rw [List.flatMap_cons, List.length_append, List.length_append, hd]
                refine ⟨by simp only [List.length_cons, List.length_nil]; omega, fun h => ?_⟩
                simp only [List.length_cons, List.length_nil] at h
                obtain ⟨j1, j2, j3⟩ := i2 (by omega)
                refine ⟨by simp only [List.mem_cons] at j1 ⊢; simpa using j1,
                  by simp only [List.mem_cons] at j2 ⊢; simpa using j2, ?_⟩
                rw [opensCode]
                · exact j3
                · intro r' e'; simp_all
                · intro r' e'; simp_all
        split at hr
        · cases hr
        · rename_i h1 h2 h3
          simp only [Option.some.injEq, Prod.mk.injEq] at hr
          obtain ⟨rfl, rfl⟩ := hr
          simp only [List.flatMap_cons, List.length_append]
          refine ⟨by omega, fun h => ?_⟩
          obtain ⟨j1, j2, j3⟩ := i2 (by omega)
          refine ⟨by simp [j1, Ne.symm h1], by simp [j2, Ne.symm h3], ?_⟩
          rw [opensCode]
          · exact j3
          · intro r' e'; simp_all
          · intro r' e'; simp_all

theorem nix_raw_back (s : Str) : ∀ fuel, s.length ≤ fuel → '\\' ∉ s → '"' ∉ s → opensCode s = false →
    readAll nixReader fuel s = some (s.flatMap bytes) := by
  have hd : bytes '$' = [36] := by decide +kernel
  induction s using opensCode.induct with
  | case1 r => intro fuel _ _ _ h; simp [opensCode] at h
  | case2 r ih =>
    intro fuel hl h1 h2 h3
    rw [opensCode] at h3
    cases fuel with
    | zero => simp at hl
    | succ fuel =>
      have := ih fuel (by simp at hl; omega) (by simp at h1; exact h1) (by simp at h2; exact h2) h3
      simp [readAll, nixReader, this, hd]
  | case3 c r g1 g2 ih =>
    intro fuel hl h1 h2 h3
    rw [opensCode] at h3
    · cases fuel with
      | zero => simp at hl
      | succ fuel =>
        simp only [List.mem_cons, not_or] at h1 h2
        have := ih fuel (by simp at hl; omega) h1.2 h2.2 h3
        by_cases hc : c = '$'
        · subst hc
          cases r with
          | nil => simp [readAll, nixReader, hd]
          | cons e r =>
            have e1 : e ≠ '{' := fun h => g1 r rfl (by rw [h])
            have e2 : e ≠ '$' := fun h => g2 r rfl (by rw [h])
            simp only [readAll, nixReader]
            rw [if_neg (by decide), if_pos trivial, if_neg e1, if_neg e2]
            simp only [this, Option.map_some, List.flatMap_cons, hd]
        · simp only [readAll, nixReader]
          rw [if_neg (Ne.symm h1.1), if_neg hc, if_neg (Ne.symm h2.1)]
          simp only [this, Option.map_some, List.flatMap_cons]
    · exact g1
    · exact g2
  | case4 => intro fuel _ _ _ _; cases fuel <;> rfl

theorem nix_raw (s : Str) : decode nixReader s = some (s.flatMap bytes) ↔
    '\\' ∉ s ∧ '"' ∉ s ∧ opensCode s = false :=
  ⟨fun h => (nix_raw_aux _ _ _ h).2 rfl, fun ⟨h1, h2, h3⟩ => nix_raw_back s _ (Nat.le_refl _) h1 h2 h3⟩

/-! ## Java -/

theorem javaUnicode_raw (fuel : Nat) (s : Str) (v : List Nat) (h : readAll javaUnicode fuel s = some v) :
    v.length ≤ (s.flatMap utf16).length ∧ (v.length = (s.flatMap utf16).length → v = s.flatMap utf16) := by
  induction fuel generalizing s v with
  | zero =>
    cases s with
    | nil => simp only [readAll, Option.some.injEq] at h; subst h; simp
    | cons c s => simp [readAll] at h
  | succ fuel ih =>
    cases s with
    | nil => simp only [readAll, Option.some.injEq] at h; subst h; simp
    | cons c s =>
      simp only [readAll] at h
      cases hr : javaUnicode (c :: s) with
      | none => rw [hr] at h; simp at h
      | some q =>
        obtain ⟨o, t⟩ := q
        rw [hr] at h
        simp only [Option.map_eq_some_iff] at h
        obtain ⟨w, hw, rfl⟩ := h
        obtain ⟨i1, i2⟩ := ih t w hw
        have hb : utf16 '\\' = [92] := by decide
        have same : ∀ p : Str, c :: s = p ++ t → o = p.flatMap utf16 →
            (o ++ w).length ≤ ((c :: s).flatMap utf16).length ∧
              ((o ++ w).length = ((c :: s).flatMap utf16).length → o ++ w = (c :: s).flatMap utf16) := by
          intro p hp ho
          rw [hp, List.flatMap_append, ho, List.length_append, List.length_append]
          exact ⟨by omega, fun h => by rw [i2 (by omega)]⟩
        simp only [javaUnicode] at hr
        split at hr
        · rename_i hc
          subst hc
          cases s with
          | nil =>
            simp only [Option.some.injEq, Prod.mk.injEq] at hr
            exact same ['\\'] (by simp [hr.2]) (by simp [hb, hr.1])
          | cons e r =>
            simp only at hr
            split at hr
            · rename_i he
              subst he
              simp only [Option.some.injEq, Prod.mk.injEq] at hr
              exact same ['\\', '\\'] (by simp [hr.2]) (by simp [hb, hr.1])
            split at hr
            · simp only [Option.map_eq_some_iff, Prod.mk.injEq] at hr
              obtain ⟨⟨x, u⟩, h1, h2, h3⟩ := hr
              obtain ⟨p, e1, e2⟩ := hexExact_cut h1
              simp only at h2 h3
              subst h2 h3
              have e3 : r = (r.takeWhile (· = 'u') ++ p) ++ u := by
                rw [List.append_assoc, ← e1, List.takeWhile_append_dropWhile]
              have hu := units_ge (f := utf16) (fun c => (utf16_len c).1) (r.takeWhile (· = 'u') ++ p)
              have hlen : (r.flatMap utf16).length =
                  ((r.takeWhile (· = 'u') ++ p).flatMap utf16).length + (u.flatMap utf16).length := by
                rw [← List.length_append, ← List.flatMap_append, ← e3]
              have hl : 4 ≤ (r.takeWhile (· = 'u') ++ p).length := by simp [e2]
              simp only [List.flatMap_cons, List.length_append, hb, List.length_cons, List.length_nil, hlen]
              exact ⟨by omega, fun h => by omega⟩
            · simp only [Option.some.injEq, Prod.mk.injEq] at hr
              exact same ['\\'] (by simp [hr.2]) (by simp [hb, hr.1])
        · simp only [Option.some.injEq, Prod.mk.injEq] at hr
          exact same [c] (by simp [hr.2]) (by simp [hr.1])

theorem javaEscapes_raw (u v : List Nat) (h : javaEscapes u = some v) :
    v.length ≤ u.length ∧ (v.length = u.length → ∀ x ∈ u, x ≠ 92 ∧ x ≠ 34 ∧ x ≠ 10 ∧ x ≠ 13) := by
  induction u using javaEscapes.induct generalizing v with
  | case1 => simp only [javaEscapes, Option.some.injEq] at h; subst h; simp
  | case2 c r ih =>
    rw [javaEscapes] at h
    simp only [Option.bind_eq_some_iff, Option.map_eq_some_iff] at h
    obtain ⟨x, -, w, hw, rfl⟩ := h
    have := (ih w hw).1
    simp only [List.length_cons]
    exact ⟨by omega, fun h => by omega⟩
  | case3 c r g hc => rw [javaEscapes] at h; · simp [hc] at h
                      · exact g
  | case4 c r g hc ih =>
    rw [javaEscapes] at h
    · rw [if_neg hc] at h
      simp only [Option.map_eq_some_iff] at h
      obtain ⟨w, hw, rfl⟩ := h
      obtain ⟨i1, i2⟩ := ih w hw
      simp only [List.length_cons]
      refine ⟨by omega, fun h x hx => ?_⟩
      rcases List.mem_cons.mp hx with rfl | hx
      · simpa only [not_or] using hc
      · exact i2 (by omega) x hx
    · exact g

theorem java_raw (s : Str) : javaDecode s = some (s.flatMap utf16) ↔
    ∀ c ∈ s, c ≠ '\\' ∧ c ≠ '"' ∧ c ≠ '\n' ∧ c ≠ '\r' := by
  have small : ∀ c : Char, c.toNat ≤ 0xffff → utf16 c = [c.toNat] := fun c h => by unfold utf16; rw [if_pos h]
  constructor
  · intro h
    simp only [javaDecode, Option.bind_eq_some_iff] at h
    obtain ⟨u, h1, h2⟩ := h
    obtain ⟨i1, i2⟩ := javaUnicode_raw _ _ _ h1
    obtain ⟨j1, j2⟩ := javaEscapes_raw _ _ h2
    have hu := i2 (by omega)
    have hx := j2 (by omega)
    rw [hu] at hx
    intro c hc
    have key : ∀ d : Char, d.toNat ≤ 0xffff → c = d → d.toNat ∈ s.flatMap utf16 := fun d hd e => by
      subst e
      exact List.mem_flatMap.mpr ⟨c, hc, by simp [small c hd]⟩
    refine ⟨fun e => ?_, fun e => ?_, fun e => ?_, fun e => ?_⟩
    · exact (hx _ (key '\\' (by decide +kernel) e)).1 rfl
    · exact (hx _ (key '"' (by decide +kernel) e)).2.1 rfl
    · exact (hx _ (key '\n' (by decide +kernel) e)).2.2.1 rfl
    · exact (hx _ (key '\r' (by decide +kernel) e)).2.2.2 rfl
  · intro h
    have h1 := decode_flatMap javaUnicode (fun c => [c]) utf16 (by simp) s (fun p c r hs => by
      have := (h c (by rw [hs]; simp)).1
      show javaUnicode (c :: _) = _
      simp only [javaUnicode]
      rw [if_neg this]; rfl)
    rw [show s.flatMap (fun c => [c]) = s from by simp] at h1
    have h2 := javaEscapes_units (s.flatMap utf16) [] (by
      intro u hu
      obtain ⟨c, hc, hu⟩ := List.mem_flatMap.mp hu
      have hh := h c hc
      refine ⟨?_, ?_, ?_, ?_⟩ <;> rintro rfl
      · exact utf16_no (c := c) 92 (by omega) (toNat_ne (d := '\\') rfl hh.1) hu
      · exact utf16_no (c := c) 34 (by omega) (toNat_ne (d := '"') rfl hh.2.1) hu
      · exact utf16_no (c := c) 10 (by omega) (toNat_ne (d := '\n') rfl hh.2.2.1) hu
      · exact utf16_no (c := c) 13 (by omega) (toNat_ne (d := '\r') rfl hh.2.2.2) hu)
    simp only [List.append_nil, javaEscapes, Option.map_some] at h2
    simp only [javaDecode, h1, Option.bind_some, h2]

end Genco
