import Verif.Model.Header
import Verif.Proofs.Lines
import Verif.Proofs.Register
import Verif.Spec.Files

/-!
# Rendering of generated headers, and of files with a header
-/

set_option autoImplicit false

namespace Genco

open Spec Tokens

variable {ι : Type}

/-! ## Bits -/

/-- The text of a bit. -/
def Bit.text (L : Lang ι) : Bit → Str
  | .lit s => s.text
  | .space => [' ']
  | .quoted s =>
    (L.openQuote false).flatten ++ ((L.writeQuoted s.text).flatten ++ (L.closeQuote false).flatten)

/-- The text of a line of bits. -/
def bitsText (L : Lang ι) (l : List Bit) : Str := l.flatMap (Bit.text L)

/-- What a bit asks for. -/
def Bit.acts (L : Lang ι) : Bit → List Act
  | .lit s => [.text s.text]
  | .space => [.space]
  | .quoted s => texts (L.openQuote false) ++ (texts (L.writeQuoted s.text) ++ texts (L.closeQuote false))

def bitsActs (L : Lang ι) (l : List Bit) : List Act := l.flatMap (Bit.acts L)

/-- No two spaces next to each other, no space at the start (`b` tells whether
the preceding item is a space). -/
def spaced : Bool → List Bit → Bool
  | _, [] => true
  | b, .space :: r => !b && spaced true r
  | _, _ :: r => spaced false r

/-- The bit certainly shows. -/
def Bit.shows : Bit → Bool
  | .lit s => s.text ≠ []
  | .space => false
  | .quoted _ => true

/-- The bit is a space. -/
def Bit.isSpace : Bit → Bool
  | .space => true
  | _ => false

/-- A line without the invisible bits at its end (spaces and empty literals). -/
def trimBits (l : List Bit) : List Bit := (l.reverse.dropWhile (fun b => !b.shows)).reverse

/-- The text a line of bits leaves in the output: spaces at the end are not
written. -/
def lineText (L : Lang ι) (l : List Bit) : Str := bitsText L (trimBits l)

/-- A line of bits as the `imports` functions make them: starts with something
visible, ends with something that is not a space, no double spaces. -/
structure LineOk (l : List Bit) : Prop where
  spaced : spaced true l = true
  first : ∃ b r, l = b :: r ∧ b.shows = true
  last : ∃ r b, l = r ++ [b] ∧ b.isSpace = false

instance (l : List Bit) : Decidable (LineOk l) :=
  decidable_of_iff (Genco.spaced true l = true ∧ (l.head?.map Bit.shows = some true) ∧
      (l.getLast?.map Bit.isSpace = some false)) (by
    constructor
    · rintro ⟨h1, h2, h3⟩
      refine ⟨h1, ?_, ?_⟩
      · cases l with
        | nil => simp at h2
        | cons b r => exact ⟨b, r, rfl, by simpa using h2⟩
      · rcases List.eq_nil_or_concat l with rfl | ⟨r, b, rfl⟩
        · simp at h3
        · exact ⟨r, b, by simp, by simpa using h3⟩
    · rintro ⟨h1, ⟨b, r, h2, h2'⟩, ⟨r', b', h3, h3'⟩⟩
      refine ⟨h1, by simp [h2, h2'], by simp [h3, h3']⟩)

/-- The language writes its string delimiters. -/
structure Delim (L : Lang ι) : Prop where
  openQ : ∀ e, ∃ s r, L.openQuote e = s :: r ∧ s ≠ []
  closeQ : ∀ e, ∃ r s, L.closeQuote e = r ++ [s] ∧ s ≠ []

theorem Delim.opens {L : Lang ι} (hL : Delim L) (e : Bool) : (L.openQuote e).flatten ≠ [] := by
  obtain ⟨s, r, hs, hne⟩ := hL.openQ e
  simp [hs, hne]

/-! ## The stream -/

/-- Items added at the end without merging. -/
def Tokens.raw (t : Tokens ι) (l : List (Item ι)) : Tokens ι := { t with rev := l.reverse ++ t.rev }

theorem raw_append (t : Tokens ι) (a b : List (Item ι)) : (t.raw a).raw b = t.raw (a ++ b) := by
  simp [Tokens.raw]

theorem raw_nil (t : Tokens ι) : t.raw [] = t := rfl

theorem extend_append (t : Tokens ι) (a b : List (Item ι)) : t.extend (a ++ b) = (t.extend a).extend b := by
  simp [Tokens.extend]

theorem extend_cons (t : Tokens ι) (i : Item ι) (b : List (Item ι)) :
    t.extend (i :: b) = (t.item i).extend b := rfl

theorem space_raw {t : Tokens ι} (h : t.rev.head? ≠ some .space) : t.item .space = t.raw [.space] := by
  obtain ⟨r, n⟩ := t
  cases r with
  | nil => rfl
  | cons i r => cases i <;> first | rfl | simp at h

theorem extend_spaced (l : List Bit) (b : Bool) (h : spaced b l = true) (t : Tokens ι)
    (ht : b = false → t.rev.head? ≠ some .space) :
    t.extend (bitItems l) = t.raw (bitItems l) := by
  induction l generalizing b t with
  | nil => rfl
  | cons x l ih =>
    simp only [bitItems, List.flatMap_cons] at ih ⊢
    rw [extend_append, ← raw_append]
    cases x with
    | lit s =>
      have : t.extend (Bit.items (.lit s)) = t.raw (Bit.items (.lit s)) := rfl
      rw [this]
      exact ih false h _ (by intro _; simp [Tokens.raw, Bit.items])
    | space =>
      simp only [spaced, Bool.and_eq_true, Bool.not_eq_true'] at h
      have : t.extend (Bit.items (.space)) = t.raw (Bit.items .space) := space_raw (ht h.1)
      rw [this]
      exact ih true h.2 _ (by simp)
    | quoted s =>
      have : t.extend (Bit.items (.quoted s)) = t.raw (Bit.items (.quoted s)) := rfl
      rw [this]
      exact ih false h _ (by intro _; simp [Tokens.raw, Bit.items])

theorem LineOk.extend {l : List Bit} (h : LineOk l) (t : Tokens ι) :
    t.extend (bitItems l) = t.raw (bitItems l) := extend_spaced l true h.spaced t (by simp)

/-- The items of a line end with something that is not whitespace. -/
theorem LineOk.firm {l : List Bit} (h : LineOk l) (t : Tokens ι) :
    ∃ i r, (t.raw (bitItems l)).rev = i :: r ∧
      (i = .closeQuote ∨ ∃ s, i = .literal s) := by
  obtain ⟨r, b, rfl, hb⟩ := h.last
  cases b with
  | lit s => exact ⟨.literal s, _, by simp [Tokens.raw, bitItems, Bit.items]; rfl, .inr ⟨s, rfl⟩⟩
  | space => simp [Bit.isSpace] at hb
  | quoted s => exact ⟨.closeQuote, _, by simp [Tokens.raw, bitItems, Bit.items]; rfl, .inl rfl⟩

/-- A separator between two lines of a header. -/
inductive Sep where
  | push
  | line
  | ind (n : Int)
  deriving DecidableEq, Repr

def Sep.item : Sep → Item ι
  | .push => .push
  | .line => .line
  | .ind n => .indentation n

def Sep.ok : Sep → Prop
  | .ind n => n ≠ 0
  | _ => True

/-- Items of separated lines. -/
def sepItems (ls : List (Sep × List Bit)) : List (Item ι) :=
  ls.flatMap (fun l => l.1.item :: bitItems l.2)

/-- A header made of a first line and separated lines. -/
structure SepsOk (ls : List (Sep × List Bit)) : Prop where
  seps : ∀ l ∈ ls, l.1.ok
  lines : ∀ l ∈ ls, LineOk l.2

theorem item_sep (s : Sep) (hs : s.ok) {t : Tokens ι} {i : Item ι} {r : List (Item ι)}
    (ht : t.rev = i :: r) (hi : i = .closeQuote ∨ ∃ s, i = .literal s) :
    t.item s.item = t.raw [s.item] := by
  obtain ⟨rv, n⟩ := t
  subst ht
  rcases hi with rfl | ⟨x, rfl⟩ <;> cases s with
  | ind m =>
    have : m ≠ 0 := hs
    simp [Tokens.item, Tokens.indentation, indentationRev, Sep.item, Tokens.raw, this]
  | _ => rfl

theorem extend_seps (ls : List (Sep × List Bit)) (h : SepsOk ls) (t : Tokens ι) (i : Item ι)
    (r : List (Item ι)) (ht : t.rev = i :: r) (hi : i = .closeQuote ∨ ∃ s, i = .literal s) :
    t.extend (sepItems ls) = t.raw (sepItems ls) ∧
      ∃ i r, (t.raw (sepItems ls)).rev = i :: r ∧ (i = .closeQuote ∨ ∃ s, i = .literal s) := by
  induction ls generalizing t i r with
  | nil => exact ⟨rfl, i, r, ht, hi⟩
  | cons l ls ih =>
    have hl := h.lines l (by simp)
    have hs := h.seps l (by simp)
    simp only [sepItems, List.flatMap_cons, List.cons_append, extend_cons, extend_append] at ih ⊢
    rw [item_sep _ hs ht hi, hl.extend, raw_append]
    obtain ⟨j, q, hj, hj'⟩ := hl.firm (t.raw [l.1.item])
    rw [raw_append] at hj
    have := ih ⟨fun x hx => h.seps x (by simp [hx]), fun x hx => h.lines x (by simp [hx])⟩ _ j q hj hj'
    rw [raw_append] at this
    simpa using this

/-- The items of a header: lines separated as given, and a final request for a
blank line. -/
def headItems (lead : Bool) (first : List Bit) (ls : List (Sep × List Bit)) : List (Item ι) :=
  (if lead then [Item.push] else []) ++ (bitItems first ++ (sepItems ls ++ [.line]))

theorem extend_lines (lead : Bool) (first : List Bit) (ls : List (Sep × List Bit))
    (hf : LineOk first) (hl : SepsOk ls) :
    (Tokens.new : Tokens ι).extend (headItems lead first ls) = Tokens.new.raw (headItems lead first ls) := by
  have key : ∀ t : Tokens ι, t.extend (bitItems first ++ (sepItems ls ++ [.line])) =
      t.raw (bitItems first ++ (sepItems ls ++ [.line])) := by
    intro t
    rw [extend_append, hf.extend]
    obtain ⟨i, r, hi, hi'⟩ := hf.firm t
    obtain ⟨h1, j, q, hj, hj'⟩ := extend_seps ls hl _ i r hi hi'
    rw [extend_append, h1]
    have := item_sep .line trivial hj hj'
    rw [extend_cons, show (Item.line : Item ι) = Sep.item .line from rfl, this]
    simp [Tokens.extend, raw_append]
  unfold headItems
  rw [extend_append]
  cases lead with
  | false => exact key _
  | true =>
    have : (Tokens.new : Tokens ι).extend (if true = true then [Item.push] else []) =
      Tokens.new.raw [.push] := rfl
    rw [this, key, raw_append]
    rfl

theorem items_raw_new (l : List (Item ι)) : ((Tokens.new : Tokens ι).raw l).items = l := by
  simp [Tokens.raw, Tokens.items, Tokens.new]

/-! ## Resolution -/

theorem res_bits (L : Lang ι) (cfg : Config) (l : List Bit) (rest : List (Item ι)) :
    res L cfg false [Frame.default] (bitItems l ++ rest) =
      pre (bitsActs L l) (res L cfg false [Frame.default] rest) := by
  induction l with
  | nil => rfl
  | cons b l ih =>
    simp only [bitItems, bitsActs, List.flatMap_cons, List.append_assoc] at ih ⊢
    rw [← pre_pre, ← ih]
    cases b with
    | lit s => rw [Bit.items, List.singleton_append, res_cons]; rfl
    | space => rw [Bit.items, List.singleton_append, res_cons]; rfl
    | quoted s =>
      simp only [Bit.items, List.cons_append, List.nil_append]
      rw [res_cons]
      simp only [Frame.default, Bool.not_false, if_true]
      rw [res_cons]
      simp only [if_true]
      rw [res_cons]
      simp only [if_true, Bool.false_eq_true, if_false]
      rw [pre_pre, pre_pre]
      simp [Bit.acts]

def Sep.act : Sep → Act
  | .push => .push
  | .line => .line
  | .ind n => .indent n

/-- What separated lines ask for. -/
def sepActs (L : Lang ι) (ls : List (Sep × List Bit)) : List Act :=
  ls.flatMap (fun l => l.1.act :: bitsActs L l.2)

theorem res_sep (L : Lang ι) (cfg : Config) (s : Sep) (hs : s.ok) (rest : List (Item ι)) :
    res L cfg false [Frame.default] (s.item :: rest) =
      pre [s.act] (res L cfg false [Frame.default] rest) := by
  rw [res_cons]
  cases s with
  | ind n => simp [Sep.item, Sep.act, show n ≠ 0 from hs]
  | _ => rfl

theorem res_seps (L : Lang ι) (cfg : Config) (ls : List (Sep × List Bit)) (h : SepsOk ls)
    (rest : List (Item ι)) :
    res L cfg false [Frame.default] (sepItems ls ++ rest) =
      pre (sepActs L ls) (res L cfg false [Frame.default] rest) := by
  induction ls with
  | nil => rfl
  | cons l ls ih =>
    have ih := ih ⟨fun x hx => h.seps x (by simp [hx]), fun x hx => h.lines x (by simp [hx])⟩
    simp only [sepItems, sepActs, List.flatMap_cons, List.append_assoc, List.cons_append] at ih ⊢
    rw [res_sep L cfg _ (h.seps l (by simp)), res_bits, ih, pre_pre, pre_pre]
    simp

/-- What a header asks for. -/
def headActs (L : Lang ι) (lead : Bool) (first : List Bit) (ls : List (Sep × List Bit)) : List Act :=
  (if lead then [Act.push] else []) ++ (bitsActs L first ++ (sepActs L ls ++ [.line]))

theorem resolve_head (L : Lang ι) (cfg : Config) (lead : Bool) (first : List Bit)
    (ls : List (Sep × List Bit)) (hl : SepsOk ls) :
    resolveItems L cfg (headItems lead first ls) = (headActs L lead first ls, some ()) := by
  have key : res L cfg false [Frame.default] (bitItems first ++ (sepItems ls ++ [.line])) =
      pre (bitsActs L first ++ (sepActs L ls ++ [.line])) ([], some []) := by
    rw [res_bits, res_seps L cfg ls hl, res_cons]
    simp only [res_nil, pre_pre]
  have : res L cfg false [Frame.default] (headItems lead first ls) =
      pre (headActs L lead first ls) ([], some []) := by
    unfold headItems headActs
    cases lead with
    | false => exact key
    | true =>
      simp only [if_true, List.singleton_append]
      rw [res_cons]
      simp only [key, pre_pre, List.singleton_append]
  simp only [resolveItems]
  have e : resolve L cfg (headItems lead first ls).length false [Frame.default] (headItems lead first ls)
    = res L cfg false [Frame.default] (headItems lead first ls) := rfl
  rw [e, this]
  simp [pre]

/-! ## Lines -/

/-- Texts and spaces only. -/
def inline : Act → Bool
  | .text _ | .space => true
  | _ => false

/-- The characters of inline actions. -/
def inlineText : List Act → Str
  | [] => []
  | .text s :: r => s ++ inlineText r
  | .space :: r => ' ' :: inlineText r
  | _ :: r => inlineText r

theorem inlineText_append (a b : List Act) : inlineText (a ++ b) = inlineText a ++ inlineText b := by
  induction a with
  | nil => rfl
  | cons x a ih => cases x <;> simp [inlineText, ih]

theorem inlineText_texts (l : List Str) : inlineText (texts l) = l.flatten := by
  induction l with
  | nil => rfl
  | cons s l ih =>
    have : texts (s :: l) = .text s :: texts l := rfl
    simp [this, inlineText, ih]

theorem inlineText_bits (L : Lang ι) (l : List Bit) : inlineText (bitsActs L l) = bitsText L l := by
  induction l with
  | nil => rfl
  | cons b l ih =>
    simp only [bitsActs, bitsText, List.flatMap_cons, inlineText_append] at ih ⊢
    rw [ih]
    cases b <;> simp [Bit.acts, Bit.text, inlineText, inlineText_append, inlineText_texts]

theorem vecActs_append (cfg : Config) (st : LSt) (v : VecState) (a b : List Act) :
    vecActs cfg st v (a ++ b) = vecActs cfg (actsSt st a) (vecActs cfg st v a) b := by
  induction a generalizing st v with
  | nil => rfl
  | cons x a ih => exact ih _ _

/-- Inside a line, written text and pending spaces follow the actions. -/
theorem vecActs_inline (cfg : Config) (l : List Act) (h : ∀ a ∈ l, inline a = true) (k : Nat) (i : Int)
    (v : VecState) :
    ∃ x k', vecActs cfg ⟨.none, k, i⟩ v l = ⟨v.lineBuffer ++ x, v.target⟩ ∧
      actsSt ⟨.none, k, i⟩ l = ⟨.none, k', i⟩ ∧
      x ++ List.replicate k' ' ' = List.replicate k ' ' ++ inlineText l := by
  induction l generalizing k v with
  | nil => exact ⟨[], k, by simp [vecActs], rfl, by simp [inlineText]⟩
  | cons a l ih =>
    have hl : ∀ a ∈ l, inline a = true := fun a ha => h a (by simp [ha])
    cases a with
    | text s =>
      by_cases hs : s = []
      · subst hs
        exact ih hl k v
      · obtain ⟨x, k', h1, h2, h3⟩ := ih hl 0 ⟨v.lineBuffer ++ (List.replicate k ' ' ++ s), v.target⟩
        refine ⟨List.replicate k ' ' ++ s ++ x, k', ?_, ?_, ?_⟩
        · have : vecAct cfg ⟨.none, k, i⟩ v (.text s) =
            ⟨v.lineBuffer ++ (List.replicate k ' ' ++ s), v.target⟩ := by
            simp [vecAct, hs, flushPad]
          simp only [vecActs, this]
          have e : actSt ⟨.none, k, i⟩ (.text s) = ⟨.none, 0, i⟩ := by simp [actSt, hs, LSt.flushed]
          rw [e, h1]
          simp
        · have e : actSt ⟨.none, k, i⟩ (.text s) = ⟨.none, 0, i⟩ := by simp [actSt, hs, LSt.flushed]
          simp only [actsSt, e, h2]
        · rw [List.append_assoc, h3]
          simp [inlineText]
    | space =>
      obtain ⟨x, k', h1, h2, h3⟩ := ih hl (k + 1) v
      refine ⟨x, k', h1, h2, ?_⟩
      rw [h3, inlineText, List.replicate_succ']
      simp
    | _ => have := h _ (List.mem_cons_self ..); simp [inline] at this

/-- The actions of a line: only texts and spaces, the first and last visible. -/
structure LineActs (l : List Act) : Prop where
  inline : ∀ a ∈ l, inline a = true
  first : ∃ s r, l = .text s :: r ∧ s ≠ []
  last : ∃ r s, l = r ++ [.text s] ∧ s ≠ []

/-- A line and its invisible end. -/
theorem trimBits_spec (l : List Bit) : ∃ t, l = trimBits l ++ t ∧ (∀ b ∈ t, b.shows = false) ∧
    ∀ b ∈ (trimBits l).getLast?, b.shows = true := by
  refine ⟨(l.reverse.takeWhile (fun b => !b.shows)).reverse, ?_, ?_, ?_⟩
  · rw [trimBits, ← List.reverse_append, List.takeWhile_append_dropWhile, List.reverse_reverse]
  · intro b hb
    have hp : ∀ (l : List Bit), ∀ b ∈ l.takeWhile (fun b => !b.shows), b.shows = false := by
      intro l
      induction l with
      | nil => simp
      | cons c l ih =>
        intro b hb
        rw [List.takeWhile_cons] at hb
        cases hc : c.shows with
        | true => simp [hc] at hb
        | false =>
          simp only [hc, Bool.not_false, if_true, List.mem_cons] at hb
          rcases hb with rfl | hb
          · exact hc
          · exact ih b hb
    exact hp _ b (List.mem_reverse.mp hb)
  · intro b hb
    rw [trimBits, List.getLast?_reverse] at hb
    have := List.head?_dropWhile_not (p := fun b : Bit => !b.shows) (l := l.reverse)
    rw [hb] at this
    simpa using this

/-- A line that ends with something visible is left as it is. -/
theorem trimBits_of_last {l : List Bit} (h : ∃ r b, l = r ++ [b] ∧ b.shows = true) : trimBits l = l := by
  obtain ⟨r, b, rfl, hb⟩ := h
  simp [trimBits, hb]

theorem lineText_of_last (L : Lang ι) {l : List Bit} (h : ∃ r b, l = r ++ [b] ∧ b.shows = true) :
    lineText L l = bitsText L l := by rw [lineText, trimBits_of_last h]

theorem trimBits_first {l : List Bit} (h : ∃ b r, l = b :: r ∧ b.shows = true) :
    ∃ b r, trimBits l = b :: r ∧ b.shows = true := by
  obtain ⟨t, h1, h2, -⟩ := trimBits_spec l
  obtain ⟨b, r, rfl, hb⟩ := h
  cases ht : trimBits (b :: r) with
  | nil =>
    rw [ht, List.nil_append] at h1
    have := h2 b (by rw [← h1]; simp)
    rw [hb] at this; cases this
  | cons c q =>
    rw [ht] at h1
    simp only [List.cons_append, List.cons.injEq] at h1
    exact ⟨c, q, rfl, by rw [← h1.1]; exact hb⟩

theorem trimBits_last {l : List Bit} (h : ∃ b r, l = b :: r ∧ b.shows = true) :
    ∃ r b, trimBits l = r ++ [b] ∧ b.shows = true := by
  obtain ⟨b, r, h1, h2⟩ := trimBits_first h
  obtain ⟨t, -, -, h3⟩ := trimBits_spec l
  rcases List.eq_nil_or_concat (trimBits l) with e | ⟨q, c, e⟩
  · rw [e] at h1; cases h1
  · rw [List.concat_eq_append] at e
    refine ⟨q, c, e, h3 c ?_⟩
    rw [e]; simp

theorem bitsActs_line (L : Lang ι) (hL : Delim L) (l : List Bit)
    (h1 : ∃ b r, l = b :: r ∧ b.shows = true) (h2 : ∃ r b, l = r ++ [b] ∧ b.shows = true) :
    LineActs (bitsActs L l) := by
  constructor
  · intro a ha
    simp only [bitsActs, List.mem_flatMap] at ha
    obtain ⟨b, -, hb⟩ := ha
    cases b <;> simp [Bit.acts, texts] at hb
    · subst hb; rfl
    · subst hb; rfl
    · rcases hb with ⟨s, -, rfl⟩ | ⟨s, -, rfl⟩ | ⟨s, -, rfl⟩ <;> rfl
  · obtain ⟨b, r, rfl, hb⟩ := h1
    cases b with
    | lit s => exact ⟨s.text, _, rfl, by simpa [Bit.shows] using hb⟩
    | space => simp [Bit.shows] at hb
    | quoted s =>
      obtain ⟨x, q, hx, hne⟩ := hL.openQ false
      refine ⟨x, texts q ++ (texts (L.writeQuoted s.text) ++ texts (L.closeQuote false)) ++
        bitsActs L r, ?_, hne⟩
      simp [bitsActs, Bit.acts, hx, texts]
  · obtain ⟨r, b, rfl, hb⟩ := h2
    cases b with
    | lit s => exact ⟨_, s.text, by simp [bitsActs, Bit.acts]; rfl, by simpa [Bit.shows] using hb⟩
    | space => simp [Bit.shows] at hb
    | quoted s =>
      obtain ⟨q, x, hx, hne⟩ := hL.closeQ false
      refine ⟨bitsActs L r ++ (texts (L.openQuote false) ++ (texts (L.writeQuoted s.text) ++ texts q)),
        x, ?_, hne⟩
      simp [bitsActs, Bit.acts, hx, texts]

/-- The lines so far and the one to come, for each separator. -/
def nextLines (w : Whitespace) (v : VecState) (s : Str) : List Str :=
  match w with
  | .initial | .none => v.target ++ [v.lineBuffer ++ s]
  | .push => v.intoVec ++ [s]
  | .line => v.intoVec ++ [[], s]

theorem vecActs_line (cfg : Config) (l : List Act) (h : LineActs l) (w : Whitespace) (hw : w ≠ .none)
    (i : Int) (v : VecState) :
    actsSt ⟨w, 0, i⟩ l = ⟨.none, 0, i⟩ ∧
      (vecActs cfg ⟨w, 0, i⟩ v l).intoVec = nextLines w v (marginText cfg i.toNat ++ inlineText l) := by
  obtain ⟨hin, ⟨s, r, rfl, hs⟩, hlast⟩ := h
  have hr : ∀ a ∈ r, Genco.inline a = true := fun a ha => hin a (by simp [ha])
  have e : actSt ⟨w, 0, i⟩ (.text s) = ⟨.none, 0, i⟩ := by simp [actSt, hs, LSt.flushed]
  obtain ⟨x, k', h1, h2, h3⟩ := vecActs_inline cfg r hr 0 i (vecAct cfg ⟨w, 0, i⟩ v (.text s))
  have hk : k' = 0 := by
    obtain ⟨r', s', hr', hs'⟩ := hlast
    rcases List.eq_nil_or_concat r with rfl | ⟨q, a, rfl⟩
    · simp [actsSt] at h2; exact h2.symm
    · rw [List.concat_eq_append] at h2 hr'
      have : a = .text s' := by
        have e := congrArg List.getLast? hr'
        rw [← List.cons_append, List.getLast?_concat, List.getLast?_concat] at e
        exact Option.some.inj e
      subst this
      rw [actsSt_append] at h2
      simp only [actsSt, actSt, ne_eq, hs', not_false_eq_true, if_true, LSt.flushed, LSt.mk.injEq] at h2
      exact h2.2.1.symm
  subst hk
  simp only [List.replicate_zero, List.append_nil, List.nil_append] at h3
  refine ⟨by simp only [actsSt, e, h2], ?_⟩
  simp only [vecActs, e, h1, h3, inlineText]
  cases w with
  | none => exact absurd rfl hw
  | _ => simp [vecAct, hs, nextLines, VecState.intoVec, flushPad]

theorem vecActs_dull (cfg : Config) (L : Lang ι) (t : List Bit) (h : ∀ b ∈ t, b.shows = false) (k : Nat)
    (i : Int) (v : VecState) :
    (∃ k', actsSt ⟨.none, k, i⟩ (bitsActs L t) = ⟨.none, k', i⟩) ∧
      vecActs cfg ⟨.none, k, i⟩ v (bitsActs L t) = v := by
  induction t generalizing k with
  | nil => exact ⟨⟨k, rfl⟩, rfl⟩
  | cons b t ih =>
    have hb := h b (by simp)
    have ih := ih (fun x hx => h x (by simp [hx]))
    cases b with
    | lit s =>
      have hs : s.text = [] := by simpa [Bit.shows] using hb
      simp only [bitsActs, List.flatMap_cons, Bit.acts, hs] at ih ⊢
      exact ih k
    | space => exact ih (k + 1)
    | quoted s => simp [Bit.shows] at hb

theorem vecActs_bits (cfg : Config) (L : Lang ι) (hL : Delim L) (l : List Bit) (h : LineOk l)
    (w : Whitespace) (hw : w ≠ .none) (i : Int) (v : VecState) :
    (∃ k, actsSt ⟨w, 0, i⟩ (bitsActs L l) = ⟨.none, k, i⟩) ∧
      (vecActs cfg ⟨w, 0, i⟩ v (bitsActs L l)).intoVec =
        nextLines w v (marginText cfg i.toNat ++ lineText L l) := by
  obtain ⟨t, ht, hd, -⟩ := trimBits_spec l
  have hl := bitsActs_line L hL _ (trimBits_first h.first) (trimBits_last h.first)
  obtain ⟨h1, h2⟩ := vecActs_line cfg _ hl w hw i v
  have e : bitsActs L l = bitsActs L (trimBits l) ++ bitsActs L t := by
    conv_lhs => rw [ht]
    simp [bitsActs]
  rw [e, actsSt_append, vecActs_append, h1]
  obtain ⟨h3, h4⟩ := vecActs_dull cfg L t hd 0 i (vecActs cfg ⟨w, 0, i⟩ v (bitsActs L (trimBits l)))
  exact ⟨h3, by rw [h4, h2, inlineText_bits]; rfl⟩

/-! ## Lines of a header -/

/-- The indentation after separators. -/
def Sep.shift : Sep → Int
  | .ind n => n
  | _ => 0

/-- The lines separated lines render to, starting at an indentation. -/
def sepLines (L : Lang ι) (cfg : Config) (i : Int) : List (Sep × List Bit) → List Str
  | [] => []
  | l :: ls =>
    (if l.1 = .line then [[]] else []) ++
    (marginText cfg (i + l.1.shift).toNat ++ lineText L l.2) :: sepLines L cfg (i + l.1.shift) ls

def sepShift (ls : List (Sep × List Bit)) : Int := (ls.map (fun l => l.1.shift)).sum

theorem vecActs_seps (L : Lang ι) (hL : Delim L) (cfg : Config) (ls : List (Sep × List Bit))
    (h : SepsOk ls) (k : Nat) (i : Int) (v : VecState) :
    (∃ k', actsSt ⟨.none, k, i⟩ (sepActs L ls) = ⟨.none, k', i + sepShift ls⟩) ∧
      (vecActs cfg ⟨.none, k, i⟩ v (sepActs L ls)).intoVec = v.intoVec ++ sepLines L cfg i ls := by
  induction ls generalizing k i v with
  | nil => simp [sepActs, actsSt, sepShift, vecActs, sepLines]
  | cons l ls ih =>
    have hs := h.seps l (by simp)
    have hl := h.lines l (by simp)
    have ih := fun k i v =>
      ih ⟨fun x hx => h.seps x (by simp [hx]), fun x hx => h.lines x (by simp [hx])⟩ k i v
    have hsh : sepShift (l :: ls) = l.1.shift + sepShift ls := by simp [sepShift]
    have e : sepActs L (l :: ls) = [l.1.act] ++ (bitsActs L l.2 ++ sepActs L ls) := by
      simp [sepActs]
    have es : ∃ w, w ≠ .none ∧ w ≠ .initial ∧ actsSt ⟨.none, k, i⟩ [l.1.act] = ⟨w, 0, i + l.1.shift⟩ ∧
        (l.1 = .line ↔ w = .line) := by
      obtain ⟨s, b⟩ := l
      cases s with
      | push => exact ⟨.push, by simp, by simp, by simp [actsSt, actSt, Sep.act, Sep.shift], by simp⟩
      | line => exact ⟨.line, by simp, by simp, by simp [actsSt, actSt, Sep.act, Sep.shift], by simp⟩
      | ind n => exact ⟨.push, by simp, by simp, by simp [actsSt, actSt, Sep.act, Sep.shift], by simp⟩
    obtain ⟨w, hw, hwi, hst, hline⟩ := es
    have hv : vecActs cfg ⟨.none, k, i⟩ v [l.1.act] = v := by
      obtain ⟨s, b⟩ := l
      cases s <;> rfl
    obtain ⟨⟨k2, h1⟩, h2⟩ := vecActs_bits cfg L hL _ hl w hw (i + l.1.shift) v
    rw [e, vecActs_append, actsSt_append, hst, hv, vecActs_append, actsSt_append, h1]
    obtain ⟨⟨k3, h3⟩, h4⟩ := ih k2 (i + l.1.shift) (vecActs cfg ⟨w, 0, i + l.1.shift⟩ v (bitsActs L l.2))
    refine ⟨⟨k3, by rw [h3, hsh, Int.add_assoc]⟩, ?_⟩
    rw [h4, h2]
    simp only [sepLines, hline]
    cases w with
    | none => exact absurd rfl hw
    | initial => exact absurd rfl hwi
    | push => simp [nextLines]
    | line => simp [nextLines]

/-- The state and lines after a header. -/
theorem vecActs_head (L : Lang ι) (hL : Delim L) (cfg : Config) (lead : Bool) (first : List Bit)
    (ls : List (Sep × List Bit)) (hf : LineOk first) (hl : SepsOk ls) :
    actsSt .new (headActs L lead first ls) = ⟨.line, 0, sepShift ls⟩ ∧
      (vecActs cfg .new .new (headActs L lead first ls)).intoVec =
        lineText L first :: sepLines L cfg 0 ls := by
  have key : actsSt .new (bitsActs L first ++ (sepActs L ls ++ [.line])) = ⟨.line, 0, sepShift ls⟩ ∧
      (vecActs cfg .new .new (bitsActs L first ++ (sepActs L ls ++ [.line]))).intoVec =
        lineText L first :: sepLines L cfg 0 ls := by
    obtain ⟨⟨k1, h1⟩, h2⟩ := vecActs_bits cfg L hL _ hf .initial (by simp) 0 .new
    obtain ⟨⟨k2, h3⟩, h4⟩ :=
      vecActs_seps L hL cfg ls hl k1 0 (vecActs cfg ⟨.initial, 0, 0⟩ .new (bitsActs L first))
    have en : LSt.new = ⟨.initial, 0, 0⟩ := rfl
    rw [en, actsSt_append, vecActs_append, h1, actsSt_append, vecActs_append, h3]
    refine ⟨by simp [actsSt, actSt], ?_⟩
    simp only [vecActs, vecAct]
    rw [h4, h2]
    have hm : marginText cfg 0 = [] := by
      simp only [marginText]; cases cfg.indentation <;> simp
    simp [nextLines, VecState.new, hm]
  cases lead with
  | false => exact key
  | true => exact key

/-! ## The body after a header -/

/-- A blank line is asked for before the first visible text. -/
def lineFirst : List Act → Bool
  | [] => false
  | .line :: _ => true
  | .text s :: r => s = [] && lineFirst r
  | _ :: r => lineFirst r

/-- A space is asked for before the first visible text, and a blank line between. -/
def loses : List Act → Bool
  | [] => false
  | .space :: r => lineFirst r || loses r
  | .text s :: r => s = [] && loses r
  | _ :: r => loses r

theorem vecActs_prefix (cfg : Config) (st : LSt) (p : List Str) (v : VecState) (l : List Act) :
    vecActs cfg st ⟨v.lineBuffer, p ++ v.target⟩ l =
      ⟨(vecActs cfg st v l).lineBuffer, p ++ (vecActs cfg st v l).target⟩ := by
  induction l generalizing st v with
  | nil => rfl
  | cons a l ih =>
    have : vecAct cfg st ⟨v.lineBuffer, p ++ v.target⟩ a =
        ⟨(vecAct cfg st v a).lineBuffer, p ++ (vecAct cfg st v a).target⟩ := by
      cases a with
      | text s =>
        by_cases hs : s = []
        · simp [vecAct, hs]
        · cases h : st.line <;> simp [vecAct, hs, h]
      | _ => rfl
    simp only [vecActs, this, ih]

theorem vecActs_invisible (cfg : Config) (st : LSt) (v : VecState) (l : List Act)
    (h : l.any visible = false) : vecActs cfg st v l = v := by
  induction l generalizing st v with
  | nil => rfl
  | cons a l ih =>
    simp only [List.any_cons, Bool.or_eq_false_iff] at h
    simp only [vecActs, vecAct_ws h.1, ih _ _ h.2]

theorem vecActs_body_from (cfg : Config) (l : List Act) (k : Nat) (hk : k ≠ 0 → lineFirst l = false)
    (h : loses l = false) (i : Int) (v : VecState) (hv : l.any visible = true) :
    (vecActs cfg ⟨.line, k, i⟩ v l).intoVec =
      v.intoVec ++ [] :: (vecActs cfg ⟨.initial, k, i⟩ .new l).intoVec := by
  induction l generalizing k i v with
  | nil => simp at hv
  | cons a l ih =>
    cases a with
    | space =>
      simp only [loses, Bool.or_eq_false_iff] at h
      exact ih (k + 1) (fun _ => h.1) h.2 i v (by simpa [visible] using hv)
    | text s =>
      by_cases hs : s = []
      · subst hs
        exact ih k (by simpa [lineFirst] using hk) (by simpa [loses] using h) i v (by simpa [visible] using hv)
      · have e1 : actSt ⟨.line, k, i⟩ (.text s) = ⟨.none, 0, i⟩ := by simp [actSt, hs, LSt.flushed]
        have e2 : actSt ⟨.initial, k, i⟩ (.text s) = ⟨.none, 0, i⟩ := by simp [actSt, hs, LSt.flushed]
        simp only [vecActs, e1, e2]
        have e3 : vecAct cfg ⟨.line, k, i⟩ v (.text s) =
            ⟨(vecAct cfg ⟨.initial, k, i⟩ .new (.text s)).lineBuffer, (v.target ++ [v.lineBuffer, []]) ++
              (vecAct cfg ⟨.initial, k, i⟩ .new (.text s)).target⟩ := by
          simp [vecAct, hs, VecState.new, flushPad]
        rw [e3, vecActs_prefix]
        simp [VecState.intoVec]
    | push => exact ih k hk h i v (by simpa [visible] using hv)
    | line =>
      have : k = 0 := by
        rcases Nat.eq_zero_or_pos k with h0 | h0
        · exact h0
        · simp [lineFirst] at hk; omega
      subst this
      exact ih 0 (by simp) h i v (by simpa [visible] using hv)
    | indent n => exact ih k hk h (i + n) v (by simpa [visible] using hv)

theorem vecActs_body (cfg : Config) (l : List Act) (h : loses l = false) (i : Int) (v : VecState)
    (hv : l.any visible = true) :
    (vecActs cfg ⟨.line, 0, i⟩ v l).intoVec =
      v.intoVec ++ [] :: (vecActs cfg ⟨.initial, 0, i⟩ .new l).intoVec :=
  vecActs_body_from cfg l 0 (by simp) h i v hv

theorem lineFirst_texts (l : List Str) (r : List Act) :
    lineFirst (texts l ++ r) = (decide (l.flatten = []) && lineFirst r) := by
  induction l with
  | nil => simp [texts]
  | cons s l ih =>
    have : texts (s :: l) ++ r = .text s :: (texts l ++ r) := rfl
    rw [this, lineFirst, ih]
    by_cases hs : s = [] <;> simp [hs]

theorem loses_texts (l : List Str) (r : List Act) :
    loses (texts l ++ r) = (decide (l.flatten = []) && loses r) := by
  induction l with
  | nil => simp [texts]
  | cons s l ih =>
    have : texts (s :: l) ++ r = .text s :: (texts l ++ r) := rfl
    rw [this, loses, ih]
    by_cases hs : s = [] <;> simp [hs]

theorem lineFirst_eq (L : Lang ι) (hL : ∀ e, (L.openQuote e).flatten ≠ []) (cfg : Config) (items : List (Item ι)) :
    lineFirst (res L cfg false [Frame.default] items).1 = breaksFirst L.langItem items := by
  induction items with
  | nil => simp [res_nil, lineFirst, breaksFirst]
  | cons i items ih =>
    rw [res_cons]
    cases i with
    | line => rfl
    | literal s =>
      simp only [Frame.default, Bool.false_eq_true, if_false, pre, List.singleton_append, lineFirst, breaksFirst]
      simp only [Frame.default] at ih
      rw [ih]
    | lang n x =>
      exact (lineFirst_texts (L.langItem x) (res L cfg false [Frame.default] items).1).trans (by rw [ih]; rfl)
    | push => exact ih
    | space => exact ih
    | indentation n =>
      simp only
      split
      · exact ih
      · exact ih
    | register n x => exact ih
    | openQuote e =>
      simp only [Frame.default, Bool.not_false, if_true]
      refine (lineFirst_texts _ _).trans ?_
      simp [hL e, breaksFirst]
    | closeQuote => simp [Frame.default, lineFirst, breaksFirst]
    | openEval => simp [Frame.default, lineFirst, breaksFirst]
    | closeEval => simp [Frame.default, lineFirst, breaksFirst]

theorem lineFirst_res (L : Lang ι) (hL : ∀ e, (L.openQuote e).flatten ≠ []) (cfg : Config) (items : List (Item ι))
    (h : breaksFirst L.langItem items = false) :
    lineFirst (res L cfg false [Frame.default] items).1 = false := (lineFirst_eq L hL cfg items).trans h

theorem loses_res (L : Lang ι) (hL : ∀ e, (L.openQuote e).flatten ≠ []) (cfg : Config) (items : List (Item ι))
    (h : losesSpace L.langItem items = false) :
    loses (res L cfg false [Frame.default] items).1 = false := by
  induction items with
  | nil => simp [res_nil, loses]
  | cons i items ih =>
    rw [res_cons]
    cases i with
    | space =>
      simp only [losesSpace, Bool.or_eq_false_iff] at h
      have h1 := lineFirst_res L hL cfg items h.1
      have h2 := ih h.2
      simp only [pre, List.singleton_append, loses]
      rw [h1, h2]; rfl
    | literal s =>
      simp only [losesSpace, Bool.and_eq_false_iff, decide_eq_false_iff_not] at h
      simp only [Frame.default, Bool.false_eq_true, if_false, pre, List.singleton_append, loses]
      rcases h with h | h
      · simp [h]
      · have := ih h
        simp only [Frame.default] at this
        simp [this]
    | lang n x =>
      simp only [losesSpace, Bool.and_eq_false_iff, decide_eq_false_iff_not] at h
      have e := loses_texts (L.langItem x) (res L cfg false [Frame.default] items).1
      refine e.trans ?_
      rcases h with h | h
      · simp [h]
      · rw [ih h, Bool.and_false]
    | push => exact ih h
    | line => exact ih h
    | indentation n =>
      simp only
      split
      · exact ih h
      · exact ih h
    | register n x => exact ih h
    | openQuote e =>
      simp only [Frame.default, Bool.not_false, if_true]
      refine (loses_texts _ _).trans ?_
      simp [hL e]
    | closeQuote => simp [Frame.default, loses]
    | openEval => simp [Frame.default, loses]
    | closeEval => simp [Frame.default, loses]

/-- Without a space before the first text none is lost. -/
theorem loses_of_leads (f : ι → List Str) : ∀ l : List (Item ι), leadsWithSpace f l = false → losesSpace f l = false
  | [], _ => rfl
  | i :: r, h => by
    have ih := loses_of_leads f r
    cases i with
    | literal s =>
      simp only [leadsWithSpace, losesSpace, Bool.and_eq_false_iff] at h ⊢
      exact h.imp id ih
    | lang p i =>
      simp only [leadsWithSpace, losesSpace, Bool.and_eq_false_iff] at h ⊢
      exact h.imp id ih
    | register p i => exact ih h
    | push => exact ih h
    | line => exact ih h
    | indentation n => exact ih h
    | space => cases h
    | _ => rfl

theorem resolveItems_res (L : Lang ι) (cfg : Config) (items : List (Item ι)) :
    (resolveItems L cfg items).1 = (res L cfg false [Frame.default] items).1 := rfl

theorem toFileVec_eq (L : Lang ι) (cfg : Config) (ss : List (List (Item ι))) :
    toFileVec L cfg ss = (resolveStreams L cfg ss).2.map
      (fun _ => (vecActs cfg .new .new (resolveStreams L cfg ss).1).intoVec) := by
  simp only [toFileVec]
  rw [okOf_eq (g := VecState.intoVec), formatFile_eq]
  have : (Fmt.new VecState.new).st = LSt.new := rfl
  rw [this]
  have h : (Fmt.new VecState.new).out = VecState.new := rfl
  rw [h, replay_append, replay_vec_acts]
  cases (resolveStreams L cfg ss).2 <;> rfl

/-- Lines of actions that show something are not a single empty line. -/
theorem vecActs_ne_from (cfg : Config) (l : List Act) (st : LSt) (h : l.any visible = true) :
    (vecActs cfg st .new l).intoVec ≠ [[]] := by
  have inv : ∀ (l : List Act) (st : LSt) (v : VecState),
      (v.lineBuffer ≠ [] ∨ v.target ≠ [] ∨ l.any visible = true) →
      (vecActs cfg st v l).intoVec ≠ [[]] := by
    intro l
    induction l with
    | nil =>
      intro st v h
      simp only [List.any_nil, Bool.false_eq_true, or_false] at h
      rcases h with h | h
      · intro e
        simp only [vecActs, VecState.intoVec] at e
        have := congrArg List.getLast? e
        simp at this
        exact h this
      · intro e
        simp only [vecActs, VecState.intoVec] at e
        have := congrArg List.length e
        simp at this
        exact h this
    | cons a l ih =>
      intro st v h
      simp only [vecActs]
      refine ih _ _ ?_
      cases ha : visible a with
      | false =>
        rw [vecAct_ws ha]
        simpa [ha] using h
      | true =>
        cases a <;> simp only [visible, Bool.false_eq_true] at ha
        rename_i s
        have hs : s ≠ [] := by simpa using ha
        left
        cases hl : st.line <;> simp [vecAct, hs, hl]
  exact inv l _ _ (.inr (.inr h))

theorem vecActs_ne (cfg : Config) (l : List Act) (h : l.any visible = true) :
    (vecActs cfg .new .new l).intoVec ≠ [[]] := vecActs_ne_from cfg l .new h

/-- A file whose header is a first line and separated lines. -/
theorem file_head (L : Lang ι) (hL : Delim L) (cfg : Config) (lead : Bool) (first : List Bit)
    (ls : List (Sep × List Bit)) (hf : LineOk first) (hl : SepsOk ls) (hz : sepShift ls = 0)
    (body : List (Item ι)) (hb : losesSpace L.langItem body = false) :
    toFileVec L cfg [headItems lead first ls, body] =
      (toVec L cfg body).map (fileLines (lineText L first :: sepLines L cfg 0 ls)) := by
  rw [toFileVec_eq, toVec_eq]
  simp only [resolveStreams, resolve_head L cfg lead first ls hl]
  have hn := loses_res L hL.opens cfg body hb
  rw [← resolveItems_res] at hn
  obtain ⟨h1, h2⟩ := vecActs_head L hL cfg lead first ls hf hl
  generalize resolveItems L cfg body = rb at hn ⊢
  obtain ⟨acts, o⟩ := rb
  cases o with
  | none => rfl
  | some u =>
    simp only [pre, List.append_nil, Option.map_some, Option.some.injEq]
    rw [vecActs_append, h1, hz]
    cases hv : acts.any visible with
    | false =>
      rw [vecActs_invisible _ _ _ _ hv, vecActs_invisible _ _ _ _ hv, h2]
      simp [fileLines, VecState.new, VecState.intoVec]
    | true =>
      rw [vecActs_body cfg acts hn 0 _ hv, h2]
      have := vecActs_ne cfg acts hv
      simp only [fileLines]
      rw [if_neg (by simp), if_neg this]
      rfl

/-- A file whose header shows nothing. -/
theorem file_nohead (L : Lang ι) (cfg : Config) (body : List (Item ι)) (hd : List (Item ι))
    (h : hd = [] ∨ hd = [.line]) :
    toFileVec L cfg [hd, body] = toVec L cfg body := by
  rw [toFileVec_eq, toVec_eq]
  rcases h with rfl | rfl
  · have : resolveItems L cfg ([] : List (Item ι)) = ([], some ()) := rfl
    simp only [resolveStreams, this]
    generalize resolveItems L cfg body = rb
    obtain ⟨acts, o⟩ := rb
    cases o <;> simp [pre]
  · have : resolveItems L cfg ([.line] : List (Item ι)) = ([.line], some ()) := rfl
    simp only [resolveStreams, this]
    generalize resolveItems L cfg body = rb
    obtain ⟨acts, o⟩ := rb
    cases o with
    | none => rfl
    | some u =>
      simp only [pre, List.append_nil, Option.map_some, Option.some.injEq, List.singleton_append]
      rfl

end Genco
