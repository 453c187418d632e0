import Verif.Lemmas.EncBytes
import Verif.Lemmas.Float
import Verif.Lemmas.Numeric
/-!
# Property theorems C01–C10: value and key codecs

Statements use only the byte order of `Spec.Order`, the float values of `Spec.Float`, and the
modelled API functions.  `enc [] v` is the encoding alone; `…_append` theorems say that encoding
into a non-empty buffer appends exactly those bytes.
-/
namespace Mondis.Props
open Mondis.Memcomparable Mondis.Lex Mondis.Spec

/-! ## C01 – signed integers -/

/-- Encoding into a buffer appends exactly 8 bytes and leaves the buffer's contents alone. -/
theorem C01_int64_append (b : Bytes) (v : Int64) :
    encodeInt64 b v = b ++ encodeInt64 [] v ∧ (encodeInt64 [] v).length = 8 := by
  simp [encodeInt64, encodeUint64]

/-- Decoding an encoding followed by anything returns the value and exactly the rest. -/
theorem C01_int64_roundtrip (v : Int64) (rest : Bytes) :
    decodeInt64 (encodeInt64 [] v ++ rest) = .ok (rest, v) := by
  simp [encodeInt64, decodeInt64, encodeUint64, decodeUint64_put, decodeUint64ToInt64_encode]

/-- Byte order is integer order, also inside composite keys. -/
theorem C01_int64_order : StrictMono (encodeInt64 []) ∧ CompositeMono (encodeInt64 []) := by
  have h : ∀ v w : Int64, v < w ↔ encodeInt64 [] v < encodeInt64 [] w := by
    intro v w
    simp [encodeInt64, encodeUint64, putUint64_lt, encodeInt64ToUint64_lt]
  refine ⟨h, ⟨fun v w x y hvw => ?_, fun a x y => by simp⟩⟩
  exact (before_of_length_eq (by simp [encodeInt64, encodeUint64]) ((h v w).mp hvw)).lt x y

/-- Decoding is total and rejects exactly the inputs shorter than 8 bytes; whatever it accepts is
the encoding of the value it returns. -/
theorem C01_int64_decode_exact (s : Bytes) :
    (s.length < 8 ∧ decodeInt64 s = .err .insufficientBytes) ∨
    (8 ≤ s.length ∧ ∃ v rest, decodeInt64 s = .ok (rest, v) ∧ s = encodeInt64 [] v ++ rest) := by
  by_cases hl : s.length < 8
  · left; exact ⟨hl, by simp [decodeInt64, decodeUint64_short hl]⟩
  · right
    refine ⟨by omega, ?_⟩
    match hd : decodeUint64 s with
    | .ok (r, u) =>
      refine ⟨decodeUint64ToInt64 u, r, by simp [decodeInt64, hd], ?_⟩
      simp [encodeInt64, encodeUint64, encodeInt64ToUint64_decode, decodeUint64_ok hd]
    | .err e =>
      have : e = .insufficientBytes := by
        unfold decodeUint64 at hd; split at hd <;> simp_all
      subst this
      exact absurd ((decodeUint64_err_iff s).mpr hd) hl
    | .panic => unfold decodeUint64 at hd; split at hd <;> simp_all

example : encodeInt64 [9] (-1) = [9, 0x7f, 0xff, 0xff, 0xff, 0xff, 0xff, 0xff, 0xff] := by decide
example : (-1 : Int64) < 0 ∧ encodeInt64 [] (-1) < encodeInt64 [] 0 := by decide

/-! ## C02 – descending and unsigned integers -/

theorem C02_uint64_roundtrip (v : UInt64) (rest : Bytes) :
    decodeUint64 (encodeUint64 [] v ++ rest) = .ok (rest, v) := by
  simp [encodeUint64, decodeUint64_put]

theorem C02_uint64Desc_roundtrip (v : UInt64) (rest : Bytes) :
    decodeUint64Desc (encodeUint64Desc [] v ++ rest) = .ok (rest, v) := by
  simp [encodeUint64Desc, encodeUint64, decodeUint64Desc, decodeUint64_put]

theorem C02_int64Desc_roundtrip (v : Int64) (rest : Bytes) :
    decodeInt64Desc (encodeInt64Desc [] v ++ rest) = .ok (rest, v) := by
  simp [encodeInt64Desc, encodeUint64, decodeInt64Desc, decodeUint64_put,
    decodeUint64ToInt64_encode]

theorem C02_uint8_roundtrip (v : UInt8) (rest : Bytes) :
    decodeUint8 (encodeUint8 [] v ++ rest) = .ok (rest, v) ∧
    decodeUint8Desc (encodeUint8Desc [] v ++ rest) = .ok (rest, v) := by
  simp [encodeUint8, encodeUint8Desc, decodeUint8, decodeUint8Desc]

theorem C02_uint64_order : StrictMono (encodeUint64 []) ∧ CompositeMono (encodeUint64 []) := by
  have h : ∀ v w : UInt64, v < w ↔ encodeUint64 [] v < encodeUint64 [] w := by
    intro v w; simp [encodeUint64, putUint64_lt]
  refine ⟨h, ⟨fun v w x y hvw => ?_, fun a x y => by simp⟩⟩
  exact (before_of_length_eq (by simp [encodeUint64]) ((h v w).mp hvw)).lt x y

theorem C02_uint64Desc_order :
    StrictAnti (encodeUint64Desc []) ∧ CompositeAnti (encodeUint64Desc []) := by
  have h : ∀ v w : UInt64, v < w ↔ encodeUint64Desc [] w < encodeUint64Desc [] v := by
    intro v w; simp [encodeUint64Desc, encodeUint64, putUint64_lt, not_lt_not]
  refine ⟨h, ⟨fun v w x y hvw => ?_, fun a x y => by simp⟩⟩
  exact (before_of_length_eq (by simp [encodeUint64Desc, encodeUint64]) ((h v w).mp hvw)).lt y x

theorem C02_int64Desc_order :
    StrictAnti (encodeInt64Desc []) ∧ CompositeAnti (encodeInt64Desc []) := by
  have h : ∀ v w : Int64, v < w ↔ encodeInt64Desc [] w < encodeInt64Desc [] v := by
    intro v w
    simp [encodeInt64Desc, encodeUint64, putUint64_lt, not_lt_not, encodeInt64ToUint64_lt]
  refine ⟨h, ⟨fun v w x y hvw => ?_, fun a x y => by simp⟩⟩
  exact (before_of_length_eq (by simp [encodeInt64Desc, encodeUint64]) ((h v w).mp hvw)).lt y x

theorem C02_uint8_order :
    (StrictMono (encodeUint8 []) ∧ CompositeMono (encodeUint8 [])) ∧
    (StrictAnti (encodeUint8Desc []) ∧ CompositeAnti (encodeUint8Desc [])) := by
  have hn : ∀ v w : UInt8, ~~~ w < ~~~ v ↔ v < w := fun v w =>
    ⟨fun h => by simpa using compl_lt h, compl_lt⟩
  refine ⟨⟨fun v w => ?_, fun v w x y h => ?_, fun a x y => by simp⟩,
    ⟨fun v w => ?_, fun v w x y h => ?_, fun a x y => by simp⟩⟩
  · simp [encodeUint8, cons_lt_cons]
  · simp [encodeUint8, cons_lt_cons, h]
  · simp [encodeUint8Desc, encodeUint8, cons_lt_cons, hn]
  · simp [encodeUint8Desc, encodeUint8, cons_lt_cons, hn, h]

/-- Short input is an error for every fixed-width decoder, never a value. -/
theorem C02_short_input (s : Bytes) (h : s.length < 8) :
    decodeUint64 s = .err .insufficientBytes ∧ decodeUint64Desc s = .err .insufficientBytes ∧
    decodeInt64Desc s = .err .insufficientBytes ∧
    decodeUint8 [] = .err .insufficientBytes ∧ decodeUint8Desc [] = .err .insufficientBytes := by
  simp [decodeUint64Desc, decodeInt64Desc, decodeUint64_short h, decodeUint8, decodeUint8Desc]

/-- Encoding into a buffer appends. -/
theorem C02_append (b : Bytes) (u : UInt64) (v : Int64) (c : UInt8) :
    encodeUint64 b u = b ++ encodeUint64 [] u ∧ encodeUint64Desc b u = b ++ encodeUint64Desc [] u ∧
    encodeInt64Desc b v = b ++ encodeInt64Desc [] v ∧ encodeUint8 b c = b ++ encodeUint8 [] c ∧
    encodeUint8Desc b c = b ++ encodeUint8Desc [] c := by
  simp [encodeUint64, encodeUint64Desc, encodeInt64Desc, encodeUint8, encodeUint8Desc]

example : (5 : UInt64) < 7 ∧ encodeUint64Desc [] 7 < encodeUint64Desc [] 5 := by decide
example : ([1, 2, 3] : Bytes).length < 8 := by decide

/-! ## C03 – byte strings round-trip -/

theorem C03_bytes_roundtrip (d rest : Bytes) :
    decodeBytes (encodeBytes [] d ++ rest) = .ok (rest, d) := by
  simpa [encodeBytes, decodeBytes] using decodeLoop_encode d [] rest

theorem C03_bytes_append (b d : Bytes) : encodeBytes b d = b ++ encodeBytes [] d := by
  simp [encodeBytes]

example : encodeBytes [] [1, 2, 3] = [1, 2, 3, 0, 0, 0, 0, 0, 250] := by decide
example : encodeBytes [] [1, 2, 3, 4, 5, 6, 7, 8]
    = [1, 2, 3, 4, 5, 6, 7, 8, 255, 0, 0, 0, 0, 0, 0, 0, 0, 247] := by decide

/-! ## C04 – order and self-delimitation -/

theorem C04_bytes_order : StrictMono (encodeBytes []) ∧ CompositeMono (encodeBytes []) := by
  have h : ∀ a b x y : Bytes, a < b → encodeBytes [] a ++ x < encodeBytes [] b ++ y := by
    intro a b x y hab
    simpa [encodeBytes] using (encodeGroups_before a b hab).lt x y
  refine ⟨fun a b => ⟨fun hab => by simpa using h a b [] [] hab, fun hab => ?_⟩, h, by simp⟩
  rcases trichotomy a b with h1 | h1 | h1
  · exact h1
  · subst h1; exact absurd hab (irrefl _)
  · exact absurd hab (asymm (by simpa using h b a [] [] h1))

/-- A composite key determines its components; in particular no encoding is a proper prefix of
another one. -/
theorem C04_bytes_self_delimiting (a b x y : Bytes)
    (h : encodeBytes [] a ++ x = encodeBytes [] b ++ y) : a = b ∧ x = y :=
  encodeGroups_inj_append (by simpa [encodeBytes] using h)

theorem C04_bytes_prefix_free (a b : Bytes)
    (h : IsPrefixOf (encodeBytes [] a) (encodeBytes [] b)) : a = b := by
  obtain ⟨t, ht⟩ := h
  exact (C04_bytes_self_delimiting a b t [] (by simpa using ht.symm)).1

example : ([1] : Bytes) < [1, 0] ∧ encodeBytes [] [1] ++ [255] < encodeBytes [] [1, 0] ++ [] := by
  decide

/-! ## C05 – descending byte strings -/

theorem C05_bytesDesc_order :
    StrictAnti (encodeBytesDesc []) ∧ CompositeAnti (encodeBytesDesc []) := by
  have h : ∀ a b x y : Bytes, a < b → encodeBytesDesc [] b ++ y < encodeBytesDesc [] a ++ x := by
    intro a b x y hab
    simpa [encodeBytesDesc_eq] using (encodeGroups_before a b hab).compl.lt y x
  refine ⟨fun a b => ⟨fun hab => by simpa using h a b [] [] hab, fun hab => ?_⟩, h, by simp⟩
  rcases trichotomy a b with h1 | h1 | h1
  · exact h1
  · subst h1; exact absurd hab (irrefl _)
  · exact absurd hab (asymm (by simpa using h b a [] [] h1))

theorem C05_bytesDesc_roundtrip (d rest : Bytes) :
    decodeBytesDesc (encodeBytesDesc [] d ++ rest) = .ok (rest, d) := by
  have h := decodeLoop_encode d [] (rest.map (~~~ ·))
  have hm : ((encodeGroups d).map (~~~ ·) ++ rest).map (~~~ ·)
      = encodeGroups d ++ rest.map (~~~ ·) := by
    simp [Function.comp_def]
  rw [decodeBytesDesc, encodeBytesDesc_eq, decodeLoop_rev, List.nil_append, hm]
  simp only [List.map_nil, h, Res.map']
  simp [Function.comp_def]

theorem C05_bytesDesc_append (b d : Bytes) : encodeBytesDesc b d = b ++ encodeBytesDesc [] d := by
  simp [encodeBytesDesc_eq]

/-- The word-at-a-time complement used on amd64 is the byte-wise complement. -/
theorem C05_fast_reverse_eq_safe (b : Bytes) : fastReverseBytes b = safeReverseBytes b :=
  fastReverseBytes_eq b

example : encodeBytesDesc [] [1, 2] < encodeBytesDesc [] [1] := by decide

/-! ## C06 – only canonical encodings are accepted -/

theorem C06_bytes_canonical (s rest d : Bytes) :
    decodeBytes s = .ok (rest, d) ↔ s = encodeBytes [] d ++ rest := by
  constructor
  · intro h
    obtain ⟨e, he, hs⟩ := decodeLoop_ok s [] rest d h
    simp only [List.nil_append] at he
    subst he
    simpa [encodeBytes] using hs
  · rintro rfl; exact C03_bytes_roundtrip d rest

theorem C06_bytesDesc_canonical (s rest d : Bytes) :
    decodeBytesDesc s = .ok (rest, d) ↔ s = encodeBytesDesc [] d ++ rest := by
  constructor
  · intro h
    rw [decodeBytesDesc, decodeLoop_rev] at h
    match hd : decodeLoop false (s.map (~~~ ·)) ([].map (~~~ ·)) with
    | .ok (r, e) =>
      rw [hd] at h
      simp only [Res.map', Res.ok.injEq, Prod.mk.injEq] at h
      obtain ⟨rfl, rfl⟩ := h
      obtain ⟨e', he, hs⟩ := decodeLoop_ok _ _ _ _ hd
      simp only [List.map_nil, List.nil_append] at he
      subst he
      have := congrArg (List.map (~~~ ·)) hs
      rw [compl_compl] at this
      rw [this, encodeBytesDesc_eq]; simp
    | .err e => rw [hd] at h; cases h
    | .panic => rw [hd] at h; cases h
  · rintro rfl; exact C05_bytesDesc_roundtrip d rest

/-- Every input is either accepted or rejected with an error; never a panic. -/
theorem C06_decode_total (s : Bytes) : decodeBytes s ≠ .panic ∧ decodeBytesDesc s ≠ .panic :=
  ⟨decodeLoop_no_panic _ _ _, decodeLoop_no_panic _ _ _⟩

/-- `EncodedBytesLength` is the exact length of the encoding. -/
theorem C06_encoded_length (d : Bytes) :
    (encodeBytes [] d).length = encodedBytesLength d.length := by
  simp only [encodeBytes, List.nil_append, encodeGroups_length, encodedBytesLength, encGroupSize]
  omega

example : decodeBytes [1, 2, 3, 0, 0, 0, 0, 0, 250, 77] = .ok ([77], [1, 2, 3]) := by decide
example : decodeBytes [1, 2, 3, 0, 0, 9, 0, 0, 250] = .err .invalidPadding := by decide

/-! ## C07 – floats -/

/-- Byte order equals numeric order for all floats that are not NaN, also in composite keys. -/
theorem C07_float_order (u v : UInt64) (hu : ¬ F64.isNaN u) (hv : ¬ F64.isNaN v) :
    (encodeFloat64 [] u < encodeFloat64 [] v ↔ F64.scaled u < F64.scaled v) ∧
    (∀ x y, F64.scaled u < F64.scaled v → encodeFloat64 [] u ++ x < encodeFloat64 [] v ++ y) ∧
    (encodeFloat64Desc [] v < encodeFloat64Desc [] u ↔ F64.scaled u < F64.scaled v) := by
  have h : encodeFloat64 [] u < encodeFloat64 [] v ↔ F64.scaled u < F64.scaled v := by
    simp [encodeFloat64, encodeUint64, putUint64_lt, enc_lt u v hu hv]
  refine ⟨h, fun x y hlt => ?_, ?_⟩
  · exact (before_of_length_eq (by simp [encodeFloat64, encodeUint64]) (h.mpr hlt)).lt x y
  · simp [encodeFloat64Desc, encodeUint64Desc, encodeUint64, putUint64_lt, not_lt_not,
      enc_lt u v hu hv]

/-- Round trip for every float except NaN and minus zero. -/
theorem C07_float_roundtrip (u : UInt64) (rest : Bytes) (hu : ¬ F64.isNaN u)
    (hz : u ≠ F64.negZero) :
    decodeFloat64 (encodeFloat64 [] u ++ rest) = .ok (rest, u) ∧
    decodeFloat64Desc (encodeFloat64Desc [] u ++ rest) = .ok (rest, u) := by
  simp [encodeFloat64, decodeFloat64, encodeUint64, decodeUint64_put, encodeFloat64Desc,
    decodeFloat64Desc, encodeUint64Desc, decodeUint64Desc, dec_enc u hu, hz]

/-- Two floats that are numerically equal (only the two zeros) encode identically, so minus zero
decodes to plus zero: the round trip fails exactly there among the non-NaN floats. -/
theorem C07_negzero_decodes_to_zero (rest : Bytes) :
    decodeFloat64 (encodeFloat64 [] F64.negZero ++ rest) = .ok (rest, 0) := by
  have h : ¬ F64.isNaN F64.negZero := by unfold F64.isNaN; decide
  simp [encodeFloat64, decodeFloat64, encodeUint64, decodeUint64_put, dec_enc _ h]

/-- The full round-trip property is false: minus zero, and a NaN that comes back as a subnormal. -/
theorem C07_float_roundtrip_false :
    (∃ u, ¬ F64.isNaN u ∧ decodeFloat64 (encodeFloat64 [] u) ≠ .ok ([], u)) ∧
    (∃ u w, F64.isNaN u ∧ ¬ F64.isNaN w ∧ decodeFloat64 (encodeFloat64 [] u) = .ok ([], w)) := by
  refine ⟨⟨F64.negZero, by unfold F64.isNaN; decide, by decide⟩,
    ⟨0x7FF8000000000001, 0x0007FFFFFFFFFFFE, by unfold F64.isNaN; decide,
      by unfold F64.isNaN; decide, by decide⟩⟩

/-- 1.5 and -2.0 are floats the theorems speak about. -/
example : ¬ F64.isNaN 0x3FF8000000000000 ∧ ¬ F64.isNaN 0xC000000000000000 ∧
    F64.scaled 0xC000000000000000 < F64.scaled 0x3FF8000000000000 := by
  have h1 : ¬ F64.isNaN 0x3FF8000000000000 := by unfold F64.isNaN; decide
  have h2 : ¬ F64.isNaN 0xC000000000000000 := by unfold F64.isNaN; decide
  exact ⟨h1, h2, (enc_lt _ _ h2 h1).mp (by decide)⟩

/-! ## C08 – compact encodings -/

open Mondis.Compact in
theorem C08_uvarint_roundtrip (v : UInt64) : ∃ d, encodeUvarint [] v = .ok d ∧
    1 ≤ d.length ∧ d.length ≤ 10 ∧
    (∀ b, encodeUvarint b v = .ok (b ++ d)) ∧
    (∀ rest, decodeUvarint (d ++ rest) = .ok (rest, v)) ∧
    (∀ p, IsPrefixOf p d → p ≠ d → decodeUvarint p = .err .insufficientBytes) := by
  obtain ⟨d, h1, h2, h3, h4⟩ := uvarint_total v
  refine ⟨d, by simp [encodeUvarint, h1], h2, h3, by simp [encodeUvarint, h1], h4, ?_⟩
  rintro p ⟨t, ht⟩ hne
  obtain ⟨i, l, rfl, hi⟩ := putUvarint_shape _ _ _ h1
  apply uvarintLoop_truncated
  intro b hb
  apply hi
  have htn : t ≠ [] := by rintro rfl; simp at ht; exact hne ht.symm
  rcases List.append_eq_append_iff.mp ht with ⟨a', rfl, ha⟩ | ⟨c', rfl, hc⟩
  · rcases a' with _ | ⟨z, a'⟩
    · simpa using hb
    · have : a' ++ t = [] := by simp at ha; simpa using ha.2
      simp at this; exact absurd this.2 htn
  · exact List.mem_append_left _ hb

open Mondis.Compact in
theorem C08_varint_roundtrip (v : Int64) : ∃ d, encodeVarint [] v = .ok d ∧
    1 ≤ d.length ∧ d.length ≤ 10 ∧
    (∀ b, encodeVarint b v = .ok (b ++ d)) ∧
    (∀ rest, decodeVarint (d ++ rest) = .ok (rest, v)) ∧
    (∀ p, IsPrefixOf p d → p ≠ d → decodeVarint p = .err .insufficientBytes) := by
  obtain ⟨d, h1, h2, h3, h4, h5, h6⟩ := C08_uvarint_roundtrip (zigzag v)
  refine ⟨d, h1, h2, h3, h4, ?_, ?_⟩
  · intro rest; simp [decodeVarint, h5, unzigzag_zigzag]
  · intro p hp hne; simp [decodeVarint, h6 p hp hne]

open Mondis.Compact in
/-- Length-prefixed bytes round-trip (any length a Go slice can have). -/
theorem C08_bytes_roundtrip (data : Bytes) (hlen : data.length < 2 ^ 63) :
    ∃ d, Compact.encodeBytes [] data = .ok d ∧
    (∀ b, Compact.encodeBytes b data = .ok (b ++ d)) ∧
    (∀ rest, (data ++ rest).length < 2 ^ 63 →
      Compact.decodeBytes (d ++ rest) = .ok (rest, data)) := by
  obtain ⟨d, h1, h2, h3, h4, h5, h6⟩ := C08_varint_roundtrip (Int64.ofNat data.length)
  refine ⟨d ++ data, by simp [Compact.encodeBytes, h1], by simp [Compact.encodeBytes, h4], ?_⟩
  intro rest hrest
  have hn : ∀ n : Nat, n < 2 ^ 63 → (Int64.ofNat n).toInt = n := fun n h => Int64.toInt_ofNat_of_lt h
  have hn1 := hn data.length hlen
  have hn2 := hn (data ++ rest).length hrest
  simp only [Compact.decodeBytes, List.append_assoc, h5, Res.ok_bind]
  rw [if_neg, if_neg]
  · rw [hn1]; simp
  · rw [Int64.lt_iff_toInt_lt, hn1]; simp
  · rw [Int64.lt_iff_toInt_lt, hn1, hn2]; simp; omega

example : Compact.encodeBytes [7] [1, 2, 3] = .ok [7, 6, 1, 2, 3] := by decide

/-! ## C09 – compact.DecodeBytes on malformed input -/

/-- It can panic: a one-byte input decodes to length -1 and the slice expression panics. -/
theorem C09_decode_panics : ∃ s, Compact.decodeBytes s = .panic := ⟨[1], by decide⟩

/-- What does hold: it panics on no input whose decoded length is non-negative. -/
theorem C09_no_panic (s : Bytes)
    (h : ∀ r n, Compact.decodeVarint s = .ok (r, n) → 0 ≤ n) : Compact.decodeBytes s ≠ .panic := by
  unfold Compact.decodeBytes
  match hd : Compact.decodeVarint s with
  | .ok (r, n) =>
    simp only [Res.ok_bind]
    have := h r n hd
    split
    · simp
    · rw [if_neg]
      · simp
      · rw [Int64.lt_iff_toInt_lt]; rw [Int64.le_iff_toInt_le] at this; omega
  | .err e => simp
  | .panic =>
    exfalso
    unfold Compact.decodeVarint at hd
    match hu : Compact.decodeUvarint s with
    | .ok (r, u) => rw [hu] at hd; simp at hd
    | .err e => rw [hu] at hd; simp at hd
    | .panic => exact Compact.uvarintLoop_no_panic _ _ _ hu

/-- Exactly which inputs crash it (slices are shorter than 2^63 bytes). -/
theorem C09_panics_iff (s : Bytes) (hl : s.length < 2 ^ 63) :
    Compact.decodeBytes s = .panic ↔ ∃ r n, Compact.decodeVarint s = .ok (r, n) ∧ n < 0 := by
  constructor
  · intro h
    cases hd : Compact.decodeVarint s with
    | ok x =>
      obtain ⟨r, n⟩ := x
      refine ⟨r, n, rfl, ?_⟩
      by_cases hn : n < 0
      · exact hn
      · exfalso
        refine C09_no_panic s ?_ h
        intro r' n' h'
        rw [hd] at h'
        cases h'
        exact Int64.not_lt.mp hn
    | err e => exfalso; exact C09_no_panic s (by intro r n h'; rw [hd] at h'; cases h') h
    | panic => exfalso; exact C09_no_panic s (by intro r n h'; rw [hd] at h'; cases h') h
  · rintro ⟨r, n, hd, hn⟩
    unfold Compact.decodeBytes
    rw [hd]
    simp only [Res.ok_bind]
    have hr : r.length ≤ s.length := Compact.decodeVarint_length hd
    rw [if_neg, if_pos hn]
    rw [Int64.lt_iff_toInt_lt] at hn ⊢
    have : (Int64.ofNat r.length).toInt = r.length := by
      exact Int64.toInt_ofNat_of_lt (by omega)
    have h0 : (0 : Int64).toInt = 0 := by decide
    omega

example : ∀ r n, Compact.decodeVarint [4, 8, 9] = .ok (r, n) → 0 ≤ n := by
  intro r n h
  have : Compact.decodeVarint [4, 8, 9] = .ok ([8, 9], 2) := by decide
  rw [this] at h; cases h; decide

/-! ## C10 – numeric values -/

theorem C10_human_roundtrip (v : Int64) :
    Numeric.decodeFromHuman (some (Numeric.encode2Human v)) = .ok v := Numeric.parse_format v

theorem C10_human_nil : Numeric.decodeFromHuman none = .err .valueIsNil := rfl

theorem C10_binary_roundtrip (v : UInt64) :
    Numeric.decodeFromBinary (Numeric.encode2Binary v []) = .ok v := by
  show Res.ok (getUint64 _ _ _ _ _ _ _ _) = _
  congr 1
  apply putUint64_inj
  rw [putUint64_getUint64]; rfl

/-- Binary decoding accepts exactly the 8-byte strings, and only the encoding of its result. -/
theorem C10_binary_exact (b : Bytes) :
    (b.length ≠ 8 ∧ Numeric.decodeFromBinary b = .err .wrongLength) ∨
    (b.length = 8 ∧ ∃ v, Numeric.decodeFromBinary b = .ok v ∧ b = Numeric.encode2Binary v []) := by
  unfold Numeric.decodeFromBinary
  split
  · right
    refine ⟨rfl, _, rfl, ?_⟩
    simp [Numeric.encode2Binary, putUint64_getUint64]
  · rename_i h
    left
    refine ⟨fun hl => ?_, rfl⟩
    rcases b with _|⟨a0,_|⟨a1,_|⟨a2,_|⟨a3,_|⟨a4,_|⟨a5,_|⟨a6,_|⟨a7,_|⟨a8,b⟩⟩⟩⟩⟩⟩⟩⟩⟩ <;> simp at hl
    exact h _ _ _ _ _ _ _ _ rfl

example : Numeric.encode2Human (-120) = [45, 49, 50, 48] := by decide

end Mondis.Props
