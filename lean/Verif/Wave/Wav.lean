import Verif.Wave.Level
import Mathlib.Algebra.Order.Round

/-!
# WAV files: property C60

Model of the WAV writer (`/repo/src/write.rs`). The writer is a list of bytes; input and output errors are not modelled. 32-bit samples are their bit patterns, samples for the
16-bit format are real numbers, so the product with `32767.49` is not rounded. An integer overflow is a panic (`none`), as in a debug build.
-/

noncomputable section
namespace Fundsp.Wv

abbrev Byte := BitVec 8

/-- `write32`: `write.rs:12-17`. -/
def write32 (x : BitVec 32) : List Byte := [x.setWidth 8, (x >>> 8).setWidth 8, (x >>> 16).setWidth 8, (x >>> 24).setWidth 8]

/-- `write16`: `write.rs:20-24`. -/
def write16 (x : BitVec 16) : List Byte := [x.setWidth 8, (x >>> 8).setWidth 8]

/-- A byte string `b"..."`. -/
def ascii (s : List Char) : List Byte := s.map fun c => BitVec.ofNat 8 c.toNat

/-- Checked `u32` sum and product, and `u16` product. -/
def addU32 (a b : Nat) : Option (BitVec 32) := if a + b < 2 ^ 32 then some (BitVec.ofNat 32 (a + b)) else none
def mulU32 (a b : Nat) : Option (BitVec 32) := if a * b < 2 ^ 32 then some (BitVec.ofNat 32 (a * b)) else none
def mulU16 (a b : Nat) : Option (BitVec 16) := if a * b < 2 ^ 16 then some (BitVec.ofNat 16 (a * b)) else none

/-- `write_wav_header`: `write.rs:27-55`. -/
def wavHeader (dataLength : Nat) (format : BitVec 16) (channels rate : Nat) : Option (List Byte) :=
  let sampleBytes := if format = 1 then 2 else 4
  (addU32 (dataLength % 2 ^ 32) 36).bind fun riffLength =>
  (mulU32 (rate * channels % 2 ^ 32) sampleBytes).bind fun byteRate =>
  (mulU16 (channels % 2 ^ 16) sampleBytes).bind fun blockAlign =>
  (mulU16 sampleBytes 8).map fun bits =>
    ascii ['R', 'I', 'F', 'F'] ++ write32 riffLength ++ ascii ['W', 'A', 'V', 'E'] ++ ascii ['f', 'm', 't', ' '] ++ write32 16 ++
      write16 format ++ write16 (BitVec.ofNat 16 channels) ++ write32 (BitVec.ofNat 32 rate) ++ write32 byteRate ++ write16 blockAlign ++ write16 bits ++
      ascii ['d', 'a', 't', 'a'] ++ write32 (BitVec.ofNat 32 dataLength)

/-- Loop over all samples: `write.rs:70-75, 93-98`. -/
def writeSamples {α : Type} (w : Wave α) (enc : α → List Byte) (out : List Byte) : Option (List Byte) :=
  forRange 0 w.len (fun k out => forRange 0 w.channels (fun c out => (w.at? c k).map fun x => out ++ enc x) out) out

/-- `round`: halves away from zero. -/
def roundAway (x : ℝ) : ℤ := if 0 ≤ x then ⌊x + 1 / 2⌋ else ⌈x - 1 / 2⌉

/-- `as i16`: saturating. -/
def asI16 (x : ℤ) : BitVec 16 := BitVec.ofInt 16 (max (-32768) (min 32767 x))

/-- The 16-bit sample: `write.rs:72-73`. -/
def quantize (x : ℝ) : BitVec 16 := asI16 (roundAway (Math.clamp11 x * 32767.49))

/-- `write_wav16`: `write.rs:60-77`. -/
def writeWav16 (w : Wave ℝ) : Option (List Byte) :=
  if 0 < w.channels then
    (wavHeader (2 * w.channels * w.len) 1 w.channels (roundNat w.rate)).bind fun h => writeSamples w (fun x => write16 (quantize x)) h
  else none

/-- `write_wav32`: `write.rs:82-100`; `to_le_bytes` has the same bytes as `write32`. -/
def writeWav32 (w : Wave (BitVec 32)) : Option (List Byte) :=
  if 0 < w.channels then
    (wavHeader (4 * w.channels * w.len) 3 w.channels (roundNat w.rate)).bind fun h => writeSamples w write32 h
  else none

/-! ## Specification: a RIFF/WAVE reader -/

/-- Little endian number. -/
def le : List Byte → Nat
  | [] => 0
  | b :: bs => b.toNat + 256 * le bs

/-- The chunks of a RIFF file: four bytes of name, four of length, the body, and a byte of padding after bodies of odd length. -/
def chunks (l : List Byte) : Option (List (List Byte × List Byte)) :=
  if l = [] then some []
  else if 8 ≤ l.length then
    let n := le ((l.drop 4).take 4)
    if n ≤ l.length - 8 then (chunks (l.drop (8 + n + n % 2))).map fun cs => (l.take 4, (l.drop 8).take n) :: cs else none
  else none
  termination_by l.length
  decreasing_by simp only [List.length_drop]; omega

/-- A file that was read. -/
structure Wav where
  format : Nat
  channels : Nat
  rate : Nat
  bits : Nat
  data : List Byte

/-- Reads a file. The length of the file must be correct, and the redundant fields of the format chunk must agree. -/
def parse (l : List Byte) : Option Wav :=
  if l.take 4 = ascii ['R', 'I', 'F', 'F'] ∧ (l.drop 8).take 4 = ascii ['W', 'A', 'V', 'E'] ∧ le ((l.drop 4).take 4) + 8 = l.length then
    (chunks (l.drop 12)).bind fun cs =>
    (cs.lookup (ascii ['f', 'm', 't', ' '])).bind fun fmt =>
    (cs.lookup (ascii ['d', 'a', 't', 'a'])).bind fun data =>
      let channels := le ((fmt.drop 2).take 2)
      let rate := le ((fmt.drop 4).take 4)
      let bits := le ((fmt.drop 14).take 2)
      if fmt.length = 16 ∧ le ((fmt.drop 12).take 2) = channels * (bits / 8) ∧ le ((fmt.drop 8).take 4) = rate * (channels * (bits / 8)) then
        some ⟨le (fmt.take 2), channels, rate, bits, data⟩
      else none
  else none

/-- Number of sample frames. -/
def Wav.length (v : Wav) : Nat := v.data.length / (v.channels * (v.bits / 8))

/-- Bytes of a sample. -/
def Wav.sample (v : Wav) (c k : Nat) : List Byte := (v.data.drop (k * (v.channels * (v.bits / 8)) + c * (v.bits / 8))).take (v.bits / 8)

/-! ## Helper lemmas -/

theorem le_write32 (x : BitVec 32) : le (write32 x) = x.toNat := by
  simp only [write32, le, BitVec.toNat_setWidth, BitVec.toNat_ushiftRight, Nat.shiftRight_eq_div_pow]
  have := x.isLt
  omega

theorem le_write16 (x : BitVec 16) : le (write16 x) = x.toNat := by
  simp only [write16, le, BitVec.toNat_setWidth, BitVec.toNat_ushiftRight, Nat.shiftRight_eq_div_pow]
  have := x.isLt
  omega

theorem ofNat_le_write32 (x : BitVec 32) : BitVec.ofNat 32 (le (write32 x)) = x := by rw [le_write32, BitVec.ofNat_toNat, BitVec.setWidth_eq]

theorem ofNat_le_write16 (x : BitVec 16) : BitVec.ofNat 16 (le (write16 x)) = x := by rw [le_write16, BitVec.ofNat_toNat, BitVec.setWidth_eq]

variable {α β : Type}

theorem flatMap_length {f : Nat → List β} {b : Nat} (n : Nat) (h : ∀ k, k < n → (f k).length = b) : ((List.range n).flatMap f).length = n * b := by
  induction n with
  | zero => simp
  | succ n ih =>
    rw [List.range_succ, List.flatMap_append, List.length_append, ih (fun k hk => h k (by omega)), Nat.succ_mul]
    simp [h n (by omega)]

theorem flatMap_slice {f : Nat → List β} {b n : Nat} (h : ∀ k, k < n → (f k).length = b) {k : Nat} (hk : k < n) : (((List.range n).flatMap f).drop (k * b)).take b = f k := by
  obtain ⟨m, rfl⟩ : ∃ m, n = k + 1 + m := ⟨n - k - 1, by omega⟩
  rw [List.range_add, List.range_succ, List.flatMap_append, List.flatMap_append]
  have h1 := flatMap_length (f := f) k (fun j hj => h j (by omega))
  simp only [List.flatMap_cons, List.flatMap_nil, List.append_nil, List.append_assoc]
  rw [List.drop_left' h1, List.take_left' (h k (by omega))]

theorem writeSamples_eq {w : Wave α} (hw : w.Wf) [Inhabited α] (enc : α → List Byte) (out : List Byte) :
    writeSamples w enc out = some (out ++ (List.range w.len).flatMap fun k => (List.range w.channels).flatMap fun c => enc ((w.at? c k).getD default)) := by
  have hat : ∀ c k, c < w.channels → k < w.len → w.at? c k = some ((w.at? c k).getD default) := by
    intro c k hc hk
    have e := (congrArg (fun w => Wave.at? w c k) (wf_tab hw)).trans (tab_at _ _ _ _ _ _)
    rw [if_pos ⟨hc, hk⟩] at e
    exact e
  unfold writeSamples
  obtain ⟨y, hy, hI⟩ := forRange_spec
    (I := fun j x => x = out ++ (List.range j).flatMap fun k => (List.range w.channels).flatMap fun c => enc ((w.at? c k).getD default))
    (f := fun k out => forRange 0 w.channels (fun c out => (w.at? c k).map fun x => out ++ enc x) out) (a := 0) (b := w.len) (x := out)
    (by
      intro k _ hk x hx
      obtain ⟨y, hy, hI⟩ := forRange_spec
        (I := fun j z => z = x ++ (List.range j).flatMap fun c => enc ((w.at? c k).getD default))
        (f := fun c out => (w.at? c k).map fun x => out ++ enc x) (a := 0) (b := w.channels) (x := x)
        (by
          intro c _ hc z hz
          refine ⟨_, by rw [hat c k hc hk]; rfl, ?_⟩
          beta_reduce
          rw [hz, List.range_succ, List.flatMap_append, List.append_assoc]
          simp) (Nat.zero_le _) (by simp)
      refine ⟨y, hy, ?_⟩
      rw [hI, hx, List.range_succ, List.flatMap_append, List.append_assoc]
      simp) (Nat.zero_le _) (by simp)
  rw [hy, hI]

theorem chunks_cons {id body rest : List Byte} {n : BitVec 32} (hid : id.length = 4) (hn : body.length = n.toNat) (heven : n.toNat % 2 = 0) :
    chunks (id ++ (write32 n ++ (body ++ rest))) = (chunks rest).map fun cs => (id, body) :: cs := by
  have h4 : (write32 n).length = 4 := rfl
  have hlen : (id ++ (write32 n ++ (body ++ rest))).length = 8 + n.toNat + rest.length := by simp only [List.length_append, hid, h4, hn]; omega
  have hd4 : (id ++ (write32 n ++ (body ++ rest))).drop 4 = write32 n ++ (body ++ rest) := List.drop_left' hid
  have hd8 : (id ++ (write32 n ++ (body ++ rest))).drop 8 = body ++ rest := by
    rw [show 8 = 4 + 4 from rfl, ← List.drop_drop, hd4]; exact List.drop_left' h4
  rw [chunks, if_neg (by intro h; rw [h] at hlen; simp at hlen; omega), if_pos (by omega)]
  simp only
  rw [hd4, List.take_left' h4, le_write32, if_pos (by omega), hd8, List.take_left' hn, List.take_left' hid]
  congr 2
  rw [heven, Nat.add_zero, ← List.drop_drop, hd8]
  exact List.drop_left' hn

/-- Reading back a header followed by data. -/
theorem parse_header {dataLength channels rate bytes : Nat} {format : BitVec 16} (hf : format = 1 ∧ bytes = 2 ∨ format = 3 ∧ bytes = 4)
    (h1 : dataLength + 36 < 2 ^ 32) (h2 : channels * bytes < 2 ^ 16) (h3 : rate * channels * bytes < 2 ^ 32) (hc : 0 < channels) (heven : dataLength % 2 = 0) :
    ∃ h, wavHeader dataLength format channels rate = some h ∧
      ∀ data : List Byte, data.length = dataLength → parse (h ++ data) = some ⟨format.toNat, channels, rate, 8 * bytes, data⟩ := by
  have hb : (if format = 1 then 2 else 4) = bytes := by
    rcases hf with ⟨rfl, rfl⟩ | ⟨rfl, rfl⟩ <;> rfl
  have hb2 : bytes = 2 ∨ bytes = 4 := by rcases hf with ⟨-, h⟩ | ⟨-, h⟩ <;> simp [h]
  have hch : channels < 2 ^ 16 := by rcases hb2 with rfl | rfl <;> omega
  have hrc : rate * channels < 2 ^ 32 := by rcases hb2 with rfl | rfl <;> omega
  have hr : rate < 2 ^ 32 := lt_of_le_of_lt (Nat.le_mul_of_pos_right _ hc) hrc
  have hbits : bytes * 8 < 2 ^ 16 := by rcases hb2 with rfl | rfl <;> norm_num
  unfold wavHeader
  simp only [hb]
  rw [Nat.mod_eq_of_lt (show dataLength < 2 ^ 32 by omega), Nat.mod_eq_of_lt hrc, Nat.mod_eq_of_lt hch]
  simp only [addU32, mulU32, mulU16, if_pos h1, if_pos h3, if_pos h2, if_pos hbits, Option.bind_some, Option.map_some]
  refine ⟨_, rfl, fun data hdata => ?_⟩
  generalize ha : BitVec.ofNat 32 (dataLength + 36) = a
  generalize hbr : BitVec.ofNat 32 (rate * channels * bytes) = br
  generalize hba : BitVec.ofNat 16 (channels * bytes) = ba
  generalize hbi : BitVec.ofNat 16 (bytes * 8) = bi
  generalize hcc : BitVec.ofNat 16 channels = cc
  generalize hrr : BitVec.ofNat 32 rate = rr
  generalize hdd : BitVec.ofNat 32 dataLength = dd
  have na : a.toNat = dataLength + 36 := by rw [← ha, BitVec.toNat_ofNat, Nat.mod_eq_of_lt h1]
  have nbr : br.toNat = rate * channels * bytes := by rw [← hbr, BitVec.toNat_ofNat, Nat.mod_eq_of_lt h3]
  have nba : ba.toNat = channels * bytes := by rw [← hba, BitVec.toNat_ofNat, Nat.mod_eq_of_lt h2]
  have nbi : bi.toNat = bytes * 8 := by rw [← hbi, BitVec.toNat_ofNat, Nat.mod_eq_of_lt hbits]
  have ncc : cc.toNat = channels := by rw [← hcc, BitVec.toNat_ofNat, Nat.mod_eq_of_lt hch]
  have nrr : rr.toNat = rate := by rw [← hrr, BitVec.toNat_ofNat, Nat.mod_eq_of_lt hr]
  have ndd : dd.toNat = dataLength := by rw [← hdd, BitVec.toNat_ofNat, Nat.mod_eq_of_lt (by omega)]
  generalize hH : ascii ['R', 'I', 'F', 'F'] ++ write32 a ++ ascii ['W', 'A', 'V', 'E'] ++ ascii ['f', 'm', 't', ' '] ++ write32 16 ++
      write16 format ++ write16 cc ++ write32 rr ++ write32 br ++ write16 ba ++ write16 bi ++ ascii ['d', 'a', 't', 'a'] ++ write32 dd = H
  have hlen : H.length = 44 := by rw [← hH]; rfl
  have t0 : (H ++ data).take 4 = ascii ['R', 'I', 'F', 'F'] := by rw [← hH]; rfl
  have t4 : ((H ++ data).drop 4).take 4 = write32 a := by rw [← hH]; rfl
  have t8 : ((H ++ data).drop 8).take 4 = ascii ['W', 'A', 'V', 'E'] := by rw [← hH]; rfl
  have t12 : (H ++ data).drop 12 = ascii ['f', 'm', 't', ' '] ++ (write32 16 ++ ((write16 format ++ (write16 cc ++ (write32 rr ++ (write32 br ++ (write16 ba ++ write16 bi))))) ++
      (ascii ['d', 'a', 't', 'a'] ++ (write32 dd ++ (data ++ []))))) := by rw [← hH, List.append_nil]; rfl
  have hch : chunks ((H ++ data).drop 12) = some [(ascii ['f', 'm', 't', ' '], write16 format ++ (write16 cc ++ (write32 rr ++ (write32 br ++ (write16 ba ++ write16 bi))))), (ascii ['d', 'a', 't', 'a'], data)] := by
    rw [t12, chunks_cons rfl rfl rfl, chunks_cons rfl (by rw [hdata, ndd]) (by rw [ndd]; exact heven), chunks, if_pos rfl]
    rfl
  unfold parse
  rw [if_pos ⟨t0, t8, by rw [t4, le_write32, na, List.length_append, hlen, hdata]; omega⟩, hch]
  simp only [Option.bind_some]
  have l1 : [(ascii ['f', 'm', 't', ' '], write16 format ++ (write16 cc ++ (write32 rr ++ (write32 br ++ (write16 ba ++ write16 bi))))), (ascii ['d', 'a', 't', 'a'], data)].lookup (ascii ['f', 'm', 't', ' ']) =
      some (write16 format ++ (write16 cc ++ (write32 rr ++ (write32 br ++ (write16 ba ++ write16 bi))))) := rfl
  have l2 : [(ascii ['f', 'm', 't', ' '], write16 format ++ (write16 cc ++ (write32 rr ++ (write32 br ++ (write16 ba ++ write16 bi))))), (ascii ['d', 'a', 't', 'a'], data)].lookup (ascii ['d', 'a', 't', 'a']) =
      some data := rfl
  rw [l1, l2]
  simp only [Option.bind_some]
  generalize hF : write16 format ++ (write16 cc ++ (write32 rr ++ (write32 br ++ (write16 ba ++ write16 bi)))) = F
  have f0 : F.take 2 = write16 format := by rw [← hF]; rfl
  have f2 : (F.drop 2).take 2 = write16 cc := by rw [← hF]; rfl
  have f4 : (F.drop 4).take 4 = write32 rr := by rw [← hF]; rfl
  have f8 : (F.drop 8).take 4 = write32 br := by rw [← hF]; rfl
  have f12 : (F.drop 12).take 2 = write16 ba := by rw [← hF]; rfl
  have f14 : (F.drop 14).take 2 = write16 bi := by rw [← hF]; rfl
  rw [f0, f2, f4, f8, f12, f14]
  simp only [le_write16, le_write32, ncc, nrr, nbr, nba, nbi]
  have hdiv : bytes * 8 / 8 = bytes := by omega
  rw [if_pos ⟨by rw [← hF]; rfl, by rw [hdiv], by rw [hdiv, Nat.mul_assoc]⟩, Nat.mul_comm bytes 8]

/-- Slices of the data. -/
theorem sample_slice {len channels b : Nat} {enc : Nat → Nat → List Byte} (henc : ∀ c k, (enc c k).length = b) {c k : Nat} (hc : c < channels) (hk : k < len) (fmt rate : Nat) :
    (⟨fmt, channels, rate, 8 * b, (List.range len).flatMap fun k => (List.range channels).flatMap fun c => enc c k⟩ : Wav).sample c k = enc c k := by
  unfold Wav.sample
  simp only
  rw [show 8 * b / 8 = b by omega, ← List.drop_drop]
  have h1 : ∀ k, k < len → ((List.range channels).flatMap fun c => enc c k).length = channels * b := fun k _ => flatMap_length channels (fun c _ => henc c k)
  have h2 := flatMap_slice h1 hk
  have h3 := flatMap_slice (f := fun c => enc c k) (b := b) (n := channels) (fun c _ => henc c k) hc
  rw [← h3, ← h2, List.drop_take, List.take_take, min_eq_left]
  rw [← Nat.sub_mul]
  exact Nat.le_mul_of_pos_left _ (by omega)

/-! ## Property theorems -/

/-- **C60, 32 bits.** For every consistent wave within the limits of the format, the written file is a correct RIFF/WAVE file of format IEEE float with the same number of channels,
rounded sample rate, length, and bit patterns of samples. -/
theorem C60_wav32 (w : Wave (BitVec 32)) (hw : w.Wf) (hc : 0 < w.channels) (h1 : 4 * w.channels * w.len + 36 < 2 ^ 32) (h2 : w.channels * 4 < 2 ^ 16) (h3 : roundNat w.rate * w.channels * 4 < 2 ^ 32) :
    ∃ bytes v, writeWav32 w = some bytes ∧ parse bytes = some v ∧ v.format = 3 ∧ v.bits = 32 ∧ v.channels = w.channels ∧ v.rate = roundNat w.rate ∧ v.length = w.len ∧
      ∀ c k, c < w.channels → k < w.len → w.at? c k = some (BitVec.ofNat 32 (le (v.sample c k))) := by
  have : Inhabited (BitVec 32) := ⟨0⟩
  obtain ⟨h, hh, hp⟩ := parse_header (dataLength := 4 * w.channels * w.len) (channels := w.channels) (rate := roundNat w.rate) (bytes := 4) (format := 3) (Or.inr ⟨rfl, rfl⟩) h1 h2 h3 hc (by rw [Nat.mul_assoc]; omega)
  have hlen : ((List.range w.len).flatMap fun k => (List.range w.channels).flatMap fun c => write32 ((w.at? c k).getD default)).length = w.len * (w.channels * 4) :=
    flatMap_length w.len (fun k _ => flatMap_length w.channels (fun c _ => rfl))
  refine ⟨_, _, ?_, hp ((List.range w.len).flatMap fun k => (List.range w.channels).flatMap fun c => write32 ((w.at? c k).getD default)) ?_, rfl, rfl, rfl, rfl, ?_, fun c k hc' hk => ?_⟩
  · unfold writeWav32
    rw [if_pos hc, hh, Option.bind_some, writeSamples_eq hw]
  · rw [hlen]; ring
  · unfold Wav.length
    simp only
    rw [hlen]
    exact Nat.mul_div_cancel _ (by omega)
  · rw [sample_slice (b := 4) (enc := fun c k => write32 ((w.at? c k).getD default)) (fun _ _ => rfl) hc' hk, ofNat_le_write32]
    have e := (congrArg (fun w => Wave.at? w c k) (wf_tab hw)).trans (tab_at _ _ _ _ _ _)
    rw [if_pos ⟨hc', hk⟩] at e
    exact e

theorem roundAway_near (x : ℝ) : |(roundAway x : ℝ) - x| ≤ 1 / 2 := by
  unfold roundAway
  rw [abs_le]
  split
  · have := Int.floor_le (x + 1 / 2); have := Int.lt_floor_add_one (x + 1 / 2)
    constructor <;> linarith
  · have := Int.le_ceil (x - 1 / 2); have := Int.ceil_lt_add_one (x - 1 / 2)
    constructor <;> linarith

theorem clamp11_range (x : ℝ) : -1 ≤ Math.clamp11 x ∧ Math.clamp11 x ≤ 1 := by
  unfold Math.clamp11
  constructor
  · exact le_min (le_max_right _ _) (by norm_num)
  · exact min_le_right _ _

/-- The integer is at most 32767 in magnitude: the conversion does not saturate. -/
theorem round_bound (x : ℝ) : -32767 ≤ roundAway (Math.clamp11 x * 32767.49) ∧ roundAway (Math.clamp11 x * 32767.49) ≤ 32767 := by
  obtain ⟨h1, h2⟩ := clamp11_range x
  have h := roundAway_near (Math.clamp11 x * 32767.49)
  rw [abs_le] at h
  constructor
  · have : (-32768 : ℝ) < roundAway (Math.clamp11 x * 32767.49) := by nlinarith [h.1]
    have : (-32768 : ℤ) < roundAway (Math.clamp11 x * 32767.49) := by exact_mod_cast this
    omega
  · have : (roundAway (Math.clamp11 x * 32767.49) : ℝ) < 32768 := by nlinarith [h.2]
    have : roundAway (Math.clamp11 x * 32767.49) < (32768 : ℤ) := by exact_mod_cast this
    omega

theorem quantize_toInt (x : ℝ) : (quantize x).toInt = roundAway (Math.clamp11 x * 32767.49) := by
  obtain ⟨h1, h2⟩ := round_bound x
  unfold quantize asI16
  generalize roundAway (Math.clamp11 x * 32767.49) = r at h1 h2 ⊢
  rw [BitVec.toInt_ofInt, min_eq_right (by omega), max_eq_right (by omega)]
  apply Int.bmod_eq_of_le <;> norm_num <;> omega

/-- **C60, 16 bits.** For every consistent wave within the limits of the format, the written file is a correct RIFF/WAVE file of format PCM with the same number of channels, rounded
sample rate and length. Every sample decodes, with full scale 32767.49, to the clamped sample within half a quantization step, and is at most 32767 in magnitude. -/
theorem C60_wav16 (w : Wave ℝ) (hw : w.Wf) (hc : 0 < w.channels) (h1 : 2 * w.channels * w.len + 36 < 2 ^ 32) (h2 : w.channels * 2 < 2 ^ 16) (h3 : roundNat w.rate * w.channels * 2 < 2 ^ 32) :
    ∃ bytes v, writeWav16 w = some bytes ∧ parse bytes = some v ∧ v.format = 1 ∧ v.bits = 16 ∧ v.channels = w.channels ∧ v.rate = roundNat w.rate ∧ v.length = w.len ∧
      ∀ c k x, w.at? c k = some x → c < w.channels ∧ k < w.len ∧ |((BitVec.ofNat 16 (le (v.sample c k))).toInt : ℝ) / 32767.49 - max (-1) (min x 1)| ≤ 1 / 2 / 32767.49 ∧
        |(BitVec.ofNat 16 (le (v.sample c k))).toInt| ≤ 32767 := by
  have : Inhabited ℝ := ⟨0⟩
  obtain ⟨h, hh, hp⟩ := parse_header (dataLength := 2 * w.channels * w.len) (channels := w.channels) (rate := roundNat w.rate) (bytes := 2) (format := 1) (Or.inl ⟨rfl, rfl⟩) h1 h2 h3 hc (by rw [Nat.mul_assoc]; omega)
  have hlen : ((List.range w.len).flatMap fun k => (List.range w.channels).flatMap fun c => write16 (quantize ((w.at? c k).getD default))).length = w.len * (w.channels * 2) :=
    flatMap_length w.len (fun k _ => flatMap_length w.channels (fun c _ => rfl))
  refine ⟨_, _, ?_, hp ((List.range w.len).flatMap fun k => (List.range w.channels).flatMap fun c => write16 (quantize ((w.at? c k).getD default))) ?_, rfl, rfl, rfl, rfl, ?_, fun c k x hx => ?_⟩
  · unfold writeWav16
    rw [if_pos hc, hh, Option.bind_some, writeSamples_eq hw]
  · rw [hlen]; ring
  · unfold Wav.length
    simp only
    rw [hlen]
    exact Nat.mul_div_cancel _ (by omega)
  · have e := (congrArg (fun w => Wave.at? w c k) (wf_tab hw)).trans (tab_at _ _ _ _ _ _)
    have hck : c < w.channels ∧ k < w.len := by
      by_contra hn
      rw [if_neg hn] at e
      rw [show w.at? c k = none from e] at hx
      cases hx
    refine ⟨hck.1, hck.2, ?_⟩
    rw [sample_slice (b := 2) (enc := fun c k => write16 (quantize ((w.at? c k).getD default))) (fun _ _ => rfl) hck.1 hck.2, ofNat_le_write16, hx, Option.getD_some, quantize_toInt]
    obtain ⟨b1, b2⟩ := round_bound x
    have hcl : Math.clamp11 x = max (-1) (min x 1) := by
      unfold Math.clamp11
      rcases le_total x (-1) with h | h
      · rw [max_eq_right h, min_eq_left (by norm_num), min_eq_left (by linarith), max_eq_left h]
      · rw [max_eq_left h, max_eq_right (le_min h (by norm_num))]
    refine ⟨?_, abs_le.2 ⟨b1, b2⟩⟩
    rw [← hcl]
    have hn := roundAway_near (Math.clamp11 x * 32767.49)
    have hdiv : (roundAway (Math.clamp11 x * 32767.49) : ℝ) / 32767.49 - Math.clamp11 x = ((roundAway (Math.clamp11 x * 32767.49) : ℝ) - Math.clamp11 x * 32767.49) / 32767.49 := by
      rw [sub_div, mul_div_cancel_right₀ _ (by norm_num)]
    rw [hdiv, abs_div, abs_of_pos (show (0 : ℝ) < 32767.49 by norm_num)]
    exact div_le_div_of_nonneg_right hn (by norm_num)

/-- A stereo wave at 44100 Hz. -/
example : (tab 44100 2 3 fun c k => BitVec.ofNat 32 (c + k) : Wave (BitVec 32)).Wf ∧ roundNat (tab 44100 2 3 fun c k => BitVec.ofNat 32 (c + k) : Wave (BitVec 32)).rate * 2 * 4 < 2 ^ 32 := by
  refine ⟨tab_wf (by omega), ?_⟩
  have : roundNat (44100 : ℝ) = 44100 := by exact_mod_cast roundNat_nat 44100
  show roundNat 44100 * 2 * 4 < 2 ^ 32
  rw [this]; norm_num

/-- Samples outside the range are clipped. -/
example : (quantize 2).toInt = 32767 := by
  rw [quantize_toInt]
  have : Math.clamp11 2 = 1 := by unfold Math.clamp11; norm_num
  rw [this]
  unfold roundAway
  rw [if_pos (by norm_num), Int.floor_eq_iff]
  norm_num

end Fundsp.Wv
