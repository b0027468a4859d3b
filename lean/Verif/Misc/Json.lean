/-
The text of a library registry: Python's `json.dump` and `json.load` for dictionaries from texts to texts.
-/
import Verif.Py.Dict
import Verif.Py.Path

set_option autoImplicit false

namespace Licant.Misc.Json
open Licant.Py Licant.Py.Path

/-! ### model -/

/-- a digit of `'{:04x}'.format(n)` -/
def hexDigit (d : Nat) : Char := if d < 10 then Char.ofNat (48 + d) else Char.ofNat (87 + d)

/-- the value of a hexadecimal digit -/
def hexVal (c : Char) : Option Nat :=
  if 48 ≤ c.toNat ∧ c.toNat ≤ 57 then some (c.toNat - 48)
  else if 97 ≤ c.toNat ∧ c.toNat ≤ 102 then some (c.toNat - 87)
  else if 65 ≤ c.toNat ∧ c.toNat ≤ 70 then some (c.toNat - 55)
  else none

/-- `'\\u{:04x}'.format(n)` -/
def u4 (n : Nat) : Str := ['\\', 'u', hexDigit (n / 4096 % 16), hexDigit (n / 256 % 16), hexDigit (n / 16 % 16), hexDigit (n % 16)]

/-- licant_libs.py:85 `json.dump`, one character of a text (`json.encoder.py_encode_basestring_ascii`).  Simplification: Python's texts can also
contain unpaired surrogates, Lean's cannot. -/
def esc (c : Char) : Str :=
  if c = '"' then ['\\', '"']
  else if c = '\\' then ['\\', '\\']
  else if c = '\n' then ['\\', 'n']
  else if c = '\r' then ['\\', 'r']
  else if c = '\t' then ['\\', 't']
  else if c = Char.ofNat 12 then ['\\', 'f']
  else if c = Char.ofNat 8 then ['\\', 'b']
  else if 32 ≤ c.toNat ∧ c.toNat ≤ 126 then [c]
  else if c.toNat < 65536 then u4 c.toNat
  else u4 (55296 + (c.toNat - 65536) / 1024) ++ u4 (56320 + (c.toNat - 65536) % 1024)

/-- licant_libs.py:85: a text in quotes -/
def quote (s : Str) : Str := '"' :: (s.flatMap esc ++ ['"'])

/-- licant_libs.py:85: the items of a dictionary, separated by `", "` -/
def body : List (Str × Str) → Str
  | [] => []
  | [(k, v)] => quote k ++ [':', ' '] ++ quote v
  | (k, v) :: l => quote k ++ [':', ' '] ++ quote v ++ [',', ' '] ++ body l

/-- licant_libs.py:85 `json.dump(paths, …)` -/
def dumps (d : Dict Str Str) : Str := '{' :: (body d ++ ['}'])

/-- the escapes of one letter (`json.decoder.BACKSLASH`) -/
def simpleEsc (e : Char) : Option Char :=
  if e = '"' then some '"'
  else if e = '\\' then some '\\'
  else if e = '/' then some '/'
  else if e = 'b' then some (Char.ofNat 8)
  else if e = 'f' then some (Char.ofNat 12)
  else if e = 'n' then some '\n'
  else if e = 'r' then some '\r'
  else if e = 't' then some '\t'
  else none

/-- four hexadecimal digits (`json.decoder._decode_uXXXX`) -/
def hex4 (a b c d : Char) : Option Nat := do
  let a ← hexVal a
  let b ← hexVal b
  let c ← hexVal c
  let d ← hexVal d
  some (a * 4096 + b * 256 + c * 16 + d)

/-- licant_libs.py:39 `json.load`, a text after its opening quote (`json.decoder.py_scanstring`): the text and what follows it; `none` is
JSONDecodeError.  Simplification: an unpaired surrogate is an error here. -/
def scan : Str → Option (Str × Str)
  | [] => none
  | c :: r =>
    if c = '"' then some ([], r)
    else if c = '\\' then
      match r with
      | [] => none
      | e :: r =>
        if e = 'u' then
          match r with
          | a :: b :: c :: d :: r =>
            match hex4 a b c d with
            | none => none
            | some n =>
              if 55296 ≤ n ∧ n ≤ 56319 then
                match r with
                | x :: y :: a :: b :: c :: d :: r =>
                  if x = '\\' ∧ y = 'u' then
                    match hex4 a b c d with
                    | none => none
                    | some m =>
                      if 56320 ≤ m ∧ m ≤ 57343 then
                        (scan r).map fun p => (Char.ofNat (65536 + (n - 55296) * 1024 + (m - 56320)) :: p.1, p.2)
                      else none
                  else none
                | _ => none
              else if 56320 ≤ n ∧ n ≤ 57343 then none
              else (scan r).map fun p => (Char.ofNat n :: p.1, p.2)
          | _ => none
        else
          match simpleEsc e with
          | none => none
          | some x => (scan r).map fun p => (x :: p.1, p.2)
    else if c.toNat < 32 then none
    else (scan r).map fun p => (c :: p.1, p.2)

/-- a text in quotes -/
def text : Str → Option (Str × Str)
  | [] => none
  | c :: r => if c = '"' then scan r else none

/-- `json.decoder.WHITESPACE` -/
def ws (t : Str) : Str := t.dropWhile fun c => c = ' ' ∨ c = '\t' ∨ c = '\n' ∨ c = '\r'

/-- licant_libs.py:39: the items of an object and what follows its closing brace (`json.decoder.JSONObject`).  `fuel` is at least the number of
items.  Simplification: values that are not texts are errors. -/
def items : (fuel : Nat) → Str → Option (List (Str × Str) × Str)
  | 0, _ => none
  | fuel + 1, t =>
    match text t with
    | none => none
    | some (k, r) =>
      match ws r with
      | [] => none
      | c :: r =>
        if c = ':' then
          match text (ws r) with
          | none => none
          | some (v, r) =>
            match ws r with
            | [] => none
            | c :: r =>
              if c = ',' then (items fuel (ws r)).map fun p => ((k, v) :: p.1, p.2)
              else if c = '}' then some ([(k, v)], r)
              else none
        else none

/-- licant_libs.py:39, libs.py:30, 33 `json.load`: the dictionary, `none` is JSONDecodeError -/
def loads (t : Str) : Option (Dict Str Str) :=
  match ws t with
  | [] => none
  | c :: r =>
    if c = '{' then
      match ws r with
      | [] => none
      | c :: r =>
        if c = '}' then (if ws r = [] then some [] else none)
        else match items (r.length + 1) (c :: r) with
          | none => none
          | some (l, r) => if ws r = [] then some (Dict.update [] l) else none
    else none

/-! ### proofs: characters -/

theorem hexVal_digit {d : Nat} (h : d < 16) : hexVal (hexDigit d) = some d := by
  have : ∀ d : Fin 16, hexVal (hexDigit d.1) = some d.1 := by decide
  exact this ⟨d, h⟩

theorem hex4_u4 {n : Nat} (h : n < 65536) :
    hex4 (hexDigit (n / 4096 % 16)) (hexDigit (n / 256 % 16)) (hexDigit (n / 16 % 16)) (hexDigit (n % 16)) = some n := by
  simp only [hex4, hexVal_digit (Nat.mod_lt _ (by decide : 0 < 16)), Option.bind_eq_bind, Option.bind_some, Option.some.injEq]
  omega

theorem char_eq {c d : Char} (h : c.toNat = d.toNat) : c = d := by
  apply Char.ext
  apply UInt32.toNat.inj
  exact h

theorem ofNat_toNat (c : Char) : Char.ofNat c.toNat = c := Char.ofNat_toNat c

theorem range (c : Char) : c.toNat < 55296 ∨ (57343 < c.toNat ∧ c.toNat < 1114112) := by
  have := c.valid
  exact this

theorem scan_plain {c : Char} (r : Str) (h1 : c ≠ '"') (h2 : c ≠ '\\') (h3 : ¬ c.toNat < 32) :
    scan (c :: r) = (scan r).map fun p => (c :: p.1, p.2) := by
  rw [scan.eq_def]
  simp only [h1, h2, h3, if_false]

theorem scan_simple {e x : Char} (r : Str) (he : e ≠ 'u') (hx : simpleEsc e = some x) :
    scan ('\\' :: e :: r) = (scan r).map fun p => (x :: p.1, p.2) := by
  rw [scan.eq_def]
  simp only [show ('\\' : Char) ≠ '"' by decide, he, if_true, if_false, hx]

theorem scan_u {a b c d : Char} {n : Nat} (r : Str) (hn : hex4 a b c d = some n) (h1 : ¬ (55296 ≤ n ∧ n ≤ 56319)) (h2 : ¬ (56320 ≤ n ∧ n ≤ 57343)) :
    scan ('\\' :: 'u' :: a :: b :: c :: d :: r) = (scan r).map fun p => (Char.ofNat n :: p.1, p.2) := by
  rw [scan.eq_def]
  simp only [show ('\\' : Char) ≠ '"' by decide, if_true, if_false, hn, h1, h2]

theorem scan_uu {a b c d a' b' c' d' : Char} {n m : Nat} (r : Str) (hn : hex4 a b c d = some n) (h1 : 55296 ≤ n ∧ n ≤ 56319)
    (hm : hex4 a' b' c' d' = some m) (h2 : 56320 ≤ m ∧ m ≤ 57343) :
    scan ('\\' :: 'u' :: a :: b :: c :: d :: '\\' :: 'u' :: a' :: b' :: c' :: d' :: r) =
      (scan r).map fun p => (Char.ofNat (65536 + (n - 55296) * 1024 + (m - 56320)) :: p.1, p.2) := by
  rw [scan.eq_def]
  simp only [show ('\\' : Char) ≠ '"' by decide, if_true, if_false, hn, h1, hm, h2, and_self]

theorem scan_high {a b c d : Char} {n : Nat} {r : Str} (hn : hex4 a b c d = some n) (h1 : 55296 ≤ n ∧ n ≤ 56319) (hr : r.length < 6) :
    scan ('\\' :: 'u' :: a :: b :: c :: d :: r) = none := by
  rw [scan.eq_def]
  simp only [show ('\\' : Char) ≠ '"' by decide, if_true, if_false, hn, h1, and_self]
  rcases r with _ | ⟨a, _ | ⟨b, _ | ⟨c, _ | ⟨d, _ | ⟨e, _ | ⟨f, p⟩⟩⟩⟩⟩⟩ <;> first | rfl | (simp at hr; omega)

theorem scan_short {r : Str} (hr : r.length < 4) : scan ('\\' :: 'u' :: r) = none := by
  rw [scan.eq_def]
  simp only [show ('\\' : Char) ≠ '"' by decide, if_true, if_false]
  rcases r with _ | ⟨a, _ | ⟨b, _ | ⟨c, _ | ⟨d, p⟩⟩⟩⟩ <;> first | rfl | (simp at hr; omega)

theorem scan_bs : scan ['\\'] = none := by rw [scan.eq_def]; rfl

/-- an escaped character is read back -/
theorem scan_esc (c : Char) (r : Str) : scan (esc c ++ r) = (scan r).map fun p => (c :: p.1, p.2) := by
  unfold esc
  split
  · subst c; exact scan_simple r (by decide) (by decide)
  split
  · subst c; exact scan_simple r (by decide) (by decide)
  split
  · subst c; exact scan_simple r (by decide) (by decide)
  split
  · subst c; exact scan_simple r (by decide) (by decide)
  split
  · subst c; exact scan_simple r (by decide) (by decide)
  split
  · subst c; exact scan_simple r (by decide) (by decide)
  split
  · subst c; exact scan_simple r (by decide) (by decide)
  split
  · rename_i h1 h2 _ _ _ _ _ h
    exact scan_plain r h1 h2 (by omega)
  split
  · rename_i h
    have hr := range c
    have := scan_u r (hex4_u4 h) (by omega) (by omega)
    rw [ofNat_toNat] at this
    exact this
  · rename_i h
    have hr := range c
    have h1 : 55296 + (c.toNat - 65536) / 1024 < 65536 := by omega
    have h2 : 56320 + (c.toNat - 65536) % 1024 < 65536 := by omega
    have := scan_uu r (hex4_u4 h1) (by omega) (hex4_u4 h2) (by omega)
    rw [show 65536 + (55296 + (c.toNat - 65536) / 1024 - 55296) * 1024 + (56320 + (c.toNat - 65536) % 1024 - 56320) = c.toNat by omega,
      ofNat_toNat] at this
    exact this

/-- prefixes of two texts -/
theorem prefix_cases {p a b : Str} (h : p <+: a ++ b) : (∃ q, q ≠ [] ∧ a = p ++ q) ∨ ∃ p', p = a ++ p' ∧ p' <+: b := by
  obtain ⟨t, ht⟩ := h
  rcases List.append_eq_append_iff.1 ht with ⟨q, h1, h2⟩ | ⟨q, h1, h2⟩
  · by_cases hq : q = []
    · subst hq
      exact .inr ⟨[], by simpa using h1.symm, by simp⟩
    · exact .inl ⟨q, hq, h1⟩
  · exact .inr ⟨q, h1, t, h2.symm⟩

/-- a broken `\uXXXX` is an error -/
theorem scan_u4_cut {n : Nat} {p q : Str} (hq : q ≠ []) (h : u4 n = p ++ q) : scan p = none := by
  have hlen : p.length < 6 := by
    have := congrArg List.length h
    simp only [u4, List.length_cons, List.length_nil, List.length_append] at this
    have : 0 < q.length := List.length_pos_iff.2 hq
    omega
  unfold u4 at h
  rcases p with _ | ⟨a, _ | ⟨b, p⟩⟩
  · rfl
  · simp only [List.cons_append, List.cons.injEq] at h
    obtain ⟨rfl, _⟩ := h
    exact scan_bs
  · simp only [List.cons_append, List.cons.injEq] at h
    obtain ⟨rfl, rfl, _⟩ := h
    simp only [List.length_cons] at hlen
    exact scan_short (by omega)

theorem scan_two_cut {b : Char} {p q : Str} (hq : q ≠ []) (h : ['\\', b] = p ++ q) : scan p = none := by
  have hlen : p.length < 2 := by
    have := congrArg List.length h
    simp only [List.length_cons, List.length_nil, List.length_append] at this
    have : 0 < q.length := List.length_pos_iff.2 hq
    omega
  rcases p with _ | ⟨x, _ | ⟨y, p⟩⟩
  · rfl
  · simp only [List.cons_append, List.cons.injEq] at h
    obtain ⟨rfl, _⟩ := h
    exact scan_bs
  · simp only [List.length_cons] at hlen; omega

/-- a broken escaped character is an error -/
theorem scan_cut {c : Char} {p q : Str} (hq : q ≠ []) (h : esc c = p ++ q) : scan p = none := by
  unfold esc at h
  split at h
  · exact scan_two_cut hq h
  split at h
  · exact scan_two_cut hq h
  split at h
  · exact scan_two_cut hq h
  split at h
  · exact scan_two_cut hq h
  split at h
  · exact scan_two_cut hq h
  split at h
  · exact scan_two_cut hq h
  split at h
  · exact scan_two_cut hq h
  split at h
  · have hlen : p.length < 1 := by
      have := congrArg List.length h
      simp only [List.length_cons, List.length_nil, List.length_append] at this
      have : 0 < q.length := List.length_pos_iff.2 hq
      omega
    have : p = [] := List.eq_nil_of_length_eq_zero (by omega)
    subst this; rfl
  split at h
  · exact scan_u4_cut hq h
  · rename_i hc
    have hr := range c
    rcases prefix_cases (p := p) ⟨q, h.symm⟩ with ⟨q', hq', h'⟩ | ⟨p', rfl, hp'⟩
    · exact scan_u4_cut hq' h'
    · -- the first half is complete, the second is not
      rw [List.append_assoc, List.append_cancel_left_eq] at h
      refine scan_high (hex4_u4 (show 55296 + (c.toNat - 65536) / 1024 < 65536 by omega)) (by omega) ?_
      have := congrArg List.length h
      simp only [u4, List.length_cons, List.length_nil, List.length_append] at this
      have : 0 < q.length := List.length_pos_iff.2 hq
      show p'.length < 6
      omega

/-! ### proofs: texts -/

theorem scan_all (s r : Str) : scan (s.flatMap esc ++ '"' :: r) = some (s, r) := by
  induction s with
  | nil => rw [List.flatMap_nil, List.nil_append, scan.eq_def]; rfl
  | cons c s ih => rw [List.flatMap_cons, List.append_assoc, scan_esc, ih]; rfl

theorem scan_all_cut {s p : Str} (h : p <+: s.flatMap esc) : scan p = none := by
  induction s generalizing p with
  | nil =>
    have : p = [] := by simpa using h
    subst this; rfl
  | cons c s ih =>
    rw [List.flatMap_cons] at h
    rcases prefix_cases h with ⟨q, hq, h'⟩ | ⟨p', rfl, h'⟩
    · exact scan_cut hq h'
    · rw [scan_esc, ih h']; rfl

theorem text_quote (s r : Str) : text (quote s ++ r) = some (s, r) := by
  simp only [quote, List.cons_append, text, if_true, List.append_assoc, List.nil_append]
  exact scan_all s r

/-- a text without its end is an error -/
theorem text_cut {s p q : Str} (hq : q ≠ []) (h : quote s = p ++ q) : text p = none := by
  cases p with
  | nil => rfl
  | cons c p =>
    simp only [quote, List.cons_append, List.cons.injEq] at h
    obtain ⟨rfl, h⟩ := h
    simp only [text, if_true]
    apply scan_all_cut (s := s)
    rcases prefix_cases (p := p) ⟨q, h.symm⟩ with ⟨q', _, h'⟩ | ⟨p', rfl, hp'⟩
    · exact ⟨q', h'.symm⟩
    · rw [List.append_assoc, List.append_cancel_left_eq] at h
      have : p' = [] := by
        cases p' with
        | nil => rfl
        | cons x p' =>
          exfalso
          simp only [List.cons_append, List.cons.injEq] at h
          cases p' with
          | nil => exact hq (by simpa using h.2.symm)
          | cons => cases h.2
      subst this
      simp

/-! ### proofs: dictionaries -/

theorem ws_space (t : Str) : ws (' ' :: t) = ws t := by simp [ws]

theorem ws_quote (s r : Str) : ws (quote s ++ r) = quote s ++ r := by simp [ws, quote]

theorem ws_colon (t : Str) : ws (':' :: t) = ':' :: t := by simp [ws]

theorem ws_comma (t : Str) : ws (',' :: t) = ',' :: t := by simp [ws]

theorem ws_close (t : Str) : ws ('}' :: t) = '}' :: t := by simp [ws]

theorem body_cons (k v : Str) (l : List (Str × Str)) (hl : l ≠ []) :
    body ((k, v) :: l) = quote k ++ (':' :: ' ' :: (quote v ++ (',' :: ' ' :: body l))) := by
  cases l with
  | nil => exact absurd rfl hl
  | cons p l => simp [body]

theorem body_one (k v : Str) : body [(k, v)] = quote k ++ (':' :: ' ' :: quote v) := by simp [body]

theorem body_start {l : List (Str × Str)} (hl : l ≠ []) : ∃ t, body l = '"' :: t := by
  rcases l with _ | ⟨⟨k, v⟩, _ | ⟨q, l⟩⟩
  · exact absurd rfl hl
  · exact ⟨_, rfl⟩
  · exact ⟨_, rfl⟩

theorem ws_body {l : List (Str × Str)} (hl : l ≠ []) (r : Str) : ws (body l ++ r) = body l ++ r := by
  obtain ⟨t, ht⟩ := body_start hl
  rw [ht]; simp [ws]

/-- the items are read back -/
theorem items_body {l : List (Str × Str)} (hl : l ≠ []) (r : Str) : ∀ fuel, l.length ≤ fuel → items fuel (body l ++ '}' :: r) = some (l, r) := by
  induction l with
  | nil => exact absurd rfl hl
  | cons p l ih =>
    obtain ⟨k, v⟩ := p
    intro fuel hf
    cases fuel with
    | zero => simp at hf
    | succ fuel =>
      by_cases hl' : l = []
      · subst hl'
        simp only [body_one, List.append_assoc, List.cons_append, items, text_quote, ws_colon, ws_space, ws_quote, ws_close, if_true]
        rw [if_neg (by decide)]
      · simp only [body_cons k v l hl', List.append_assoc, List.cons_append, items, text_quote, ws_colon, ws_space, ws_quote, ws_comma,
          ws_body hl', if_true]
        rw [ih hl' fuel (by simpa using hf)]
        rfl

/-- the items without their end are an error -/
theorem items_cut {l : List (Str × Str)} {p : Str} (h : p <+: body l) : ∀ fuel, items fuel p = none := by
  induction l generalizing p with
  | nil =>
    have : p = [] := by simpa [body] using h
    subst this
    intro fuel; cases fuel <;> rfl
  | cons q l ih =>
    obtain ⟨k, v⟩ := q
    intro fuel
    cases fuel with
    | zero => rfl
    | succ fuel =>
      -- what follows the value
      obtain ⟨tail, hb, htail⟩ : ∃ tail, body ((k, v) :: l) = quote k ++ (':' :: ' ' :: (quote v ++ tail)) ∧
          ∀ p, p <+: tail → p = [] ∨ p = [','] ∨ ∃ p', p = ',' :: ' ' :: p' ∧ p' <+: body l := by
        by_cases hl' : l = []
        · subst hl'
          exact ⟨[], by simp [body_one], fun p hp => .inl (by simpa using hp)⟩
        · refine ⟨',' :: ' ' :: body l, body_cons k v l hl', fun p hp => ?_⟩
          rcases p with _ | ⟨a, _ | ⟨b, p⟩⟩
          · exact .inl rfl
          · simp only [List.cons_prefix_cons] at hp
            exact .inr (.inl (by rw [hp.1]))
          · simp only [List.cons_prefix_cons] at hp
            exact .inr (.inr ⟨p, by rw [hp.1, hp.2.1], hp.2.2⟩)
      rw [hb] at h
      rcases prefix_cases h with ⟨q, hq, h'⟩ | ⟨p1, rfl, h1⟩
      · simp only [items, text_cut hq h']
      · rcases p1 with _ | ⟨a, _ | ⟨b, p2⟩⟩
        · have := text_quote k []
          simp only [items, this]
          rfl
        · simp only [List.cons_prefix_cons] at h1
          obtain ⟨rfl, _⟩ := h1
          simp only [items, text_quote, ws_colon, if_true]
          rfl
        · simp only [List.cons_prefix_cons] at h1
          obtain ⟨rfl, rfl, h2⟩ := h1
          rcases prefix_cases h2 with ⟨q, hq, h'⟩ | ⟨p3, rfl, h3⟩
          · have hw : ws p2 = p2 := by
              cases p2 with
              | nil => rfl
              | cons x p2 =>
                simp only [quote, List.cons_append, List.cons.injEq] at h'
                obtain ⟨rfl, _⟩ := h'
                simp [ws]
            simp only [items, text_quote, ws_colon, ws_space, if_true, hw, text_cut hq h']
          · simp only [items, text_quote, ws_colon, ws_space, ws_quote, if_true]
            rcases htail p3 h3 with rfl | rfl | ⟨p', rfl, hp'⟩
            · rfl
            · simp only [ws_comma, if_true]
              have : items fuel (ws []) = none := by cases fuel <;> rfl
              rw [this]; rfl
            · have hw : ws p' = p' := by
                cases p' with
                | nil => rfl
                | cons x p' =>
                  by_cases hl' : l = []
                  · subst hl'; simp [body] at hp'
                  · obtain ⟨t, ht⟩ := body_start hl'
                    rw [ht, List.cons_prefix_cons] at hp'
                    obtain ⟨rfl, _⟩ := hp'
                    simp [ws]
              simp only [ws_comma, ws_space, if_true, hw, ih hp' fuel]
              rfl

theorem update_nil {d : Dict Str Str} (hd : d.keys.Nodup) : Dict.update [] d = d := by
  have key : ∀ (l acc : Dict Str Str), (acc ++ l).keys.Nodup → Dict.update acc l = acc ++ l := by
    intro l
    induction l with
    | nil => intro acc _; simp [Dict.update]
    | cons p l ih =>
      intro acc h
      have hset : acc.set p.1 p.2 = acc ++ [p] := by
        have hn : p.1 ∉ acc.keys := by
          simp only [Dict.keys, List.map_append, List.map_cons] at h ⊢
          exact fun hm => (List.nodup_append.1 h).2.2 _ hm _ (by simp) rfl
        clear h ih
        induction acc with
        | nil => rfl
        | cons q acc ih =>
          obtain ⟨k, v⟩ := q
          simp only [Dict.keys, List.map_cons, List.mem_cons, not_or] at hn
          simp only [Dict.set, Ne.symm hn.1, if_false, List.cons_append]
          rw [ih hn.2]
      show Dict.update (acc.set p.1 p.2) l = _
      rw [hset, ih (acc ++ [p]) (by simpa using h)]
      simp
  simpa using key d [] (by simpa using hd)

theorem body_length (l : List (Str × Str)) : l.length ≤ (body l).length := by
  induction l with
  | nil => simp
  | cons p l ih =>
    obtain ⟨k, v⟩ := p
    by_cases hl : l = []
    · subst hl; simp [body_one, quote]
    · rw [body_cons k v l hl]
      simp only [List.length_cons, List.length_append]
      omega

/-- **A registry that was written is read back**, whatever the names and the paths are. -/
theorem loads_dumps {d : Dict Str Str} (hd : d.keys.Nodup) : loads (dumps d) = some d := by
  unfold loads dumps
  rw [show ws ('{' :: (body d ++ ['}'])) = '{' :: (body d ++ ['}']) by simp [ws]]
  simp only [if_true]
  by_cases hl : d = []
  · subst hl; rfl
  · rw [ws_body hl]
    obtain ⟨t, ht⟩ := body_start hl
    have h := items_body hl [] ((t ++ ['}']).length + 1) (by have := body_length d; rw [ht] at this; simp at this ⊢; omega)
    rw [ht] at h ⊢
    simp only [List.cons_append] at h ⊢
    rw [if_neg (by decide)]
    rw [h]
    show some (Dict.update [] d) = some d
    rw [update_nil hd]

/-- **The beginning of a registry is not a registry.** -/
theorem loads_cut {d : Dict Str Str} {p : Str} (h : p <+: dumps d) (hne : p ≠ dumps d) : loads p = none := by
  cases p with
  | nil => rfl
  | cons c p =>
    simp only [dumps, List.cons_prefix_cons] at h
    obtain ⟨rfl, h⟩ := h
    have h' : p <+: body d := by
      rcases prefix_cases h with ⟨q, _, h'⟩ | ⟨p', rfl, hp'⟩
      · exact ⟨q, h'.symm⟩
      · rcases List.prefix_cons_iff.1 hp' with rfl | ⟨t, rfl, ht⟩
        · simp
        · have : t = [] := by simpa using ht
          subst this
          exact absurd rfl hne
    unfold loads
    rw [show ws ('{' :: p) = '{' :: p by simp [ws]]
    simp only [if_true]
    cases p with
    | nil => rfl
    | cons x p =>
      have hx : x = '"' := by
        by_cases hl : d = []
        · subst hl; simp [body] at h'
        · obtain ⟨t, ht⟩ := body_start hl
          rw [ht, List.cons_prefix_cons] at h'
          exact h'.1
      subst hx
      rw [show ws ('"' :: p) = '"' :: p by simp [ws]]
      simp only [show ('"' : Char) ≠ '}' by decide, if_false]
      rw [items_cut h']

/-- **A registry followed by something else is not a registry.** -/
theorem loads_extra (d : Dict Str Str) {x : Str} (hx : ws x ≠ []) : loads (dumps d ++ x) = none := by
  unfold loads dumps
  rw [show ws ('{' :: (body d ++ ['}']) ++ x) = '{' :: (body d ++ '}' :: x) by simp [ws]]
  simp only [if_true]
  by_cases hl : d = []
  · subst hl
    rw [body, List.nil_append, ws_close]
    simp only [if_true, hx, if_false]
  · rw [ws_body hl]
    obtain ⟨t, ht⟩ := body_start hl
    have h := items_body hl x ((t ++ '}' :: x).length + 1) (by have := body_length d; rw [ht] at this; simp at this ⊢; omega)
    rw [ht] at h ⊢
    simp only [List.cons_append] at h ⊢
    rw [if_neg (by decide)]
    rw [h]
    simp only [hx, if_false]

theorem dumps_end (d : Dict Str Str) {n : Nat} (hn : n < (dumps d).length) : ws ((dumps d).drop n) ≠ [] := by
  have hs : dumps d = ('{' :: body d) ++ ['}'] := rfl
  rw [hs] at hn ⊢
  rw [List.drop_append_of_le_length (by simp at hn ⊢; omega)]
  have key : ∀ a : Str, ws (a ++ ['}']) ≠ [] := by
    intro a
    induction a with
    | nil => simp [ws]
    | cons c a ih =>
      unfold ws at ih ⊢
      rw [List.cons_append, List.dropWhile_cons]
      split
      · exact ih
      · simp
  exact key _

/-- a name with a quote and a path with an accent, a line feed and an emoji -/
example : dumps [("a\"b".toList, "/é\n😀".toList)] = "{\"a\\\"b\": \"/\\u00e9\\n\\ud83d\\ude00\"}".toList := by decide +kernel

example : loads " { \"a\":\"\\u0041\\/\" }\n".toList = some [("a".toList, "A/".toList)] ∧ loads "{}x".toList = none ∧
    loads "{\"a\": \"b\",}".toList = none := by decide +kernel

end Licant.Misc.Json
