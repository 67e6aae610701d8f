import Verif.Dump

/-! Facts about the checksum and about bytes. -/

namespace Gkc.Dump

/-! ### One step -/

/-- a step as a function of one word -/
def word (x : BitVec 32) : BitVec 32 := table (x.setWidth 8) ^^^ x.sshiftRight 8

theorem step_word (c : BitVec 32) (b : Byte) : crcStep c b = word (c ^^^ b.setWidth 32) := by
  unfold crcStep word
  have h1 : (c ^^^ b.setWidth 32).setWidth 8 = b ^^^ c.setWidth 8 := by
    ext i hi
    simp [Bool.xor_comm]
  have h2 : (c ^^^ b.setWidth 32).sshiftRight 8 = c.sshiftRight 8 := by
    ext i hi
    simp [BitVec.getElem_sshiftRight, BitVec.msb_eq_getLsbD_last]
  rw [h1, h2]

/-- where the nine highest bits of an entry, or their complement, come from -/
def inv9 : List Nat :=
  [0, 473, 408, 65, 195, 282, 347, 130, 351, 134, 199, 286, 412, 69, 4, 477, 77, 404, 469, 12, 142, 343, 278, 207, 274, 203, 138,
   339, 465, 8, 73, 400, 323, 154, 219, 258, 384, 89, 24, 449, 28, 453, 388, 93, 223, 262, 327, 158, 270, 215, 150, 335, 461, 20,
   85, 396, 81, 392, 457, 16, 146, 331, 266, 211, 117, 428, 493, 52, 182, 367, 302, 247, 298, 243, 178, 363, 489, 48, 113, 424,
   56, 481, 416, 121, 251, 290, 355, 186, 359, 190, 255, 294, 420, 125, 60, 485, 310, 239, 174, 375, 501, 44, 109, 436, 105, 432,
   497, 40, 170, 371, 306, 235, 379, 162, 227, 314, 440, 97, 32, 505, 36, 509, 444, 101, 231, 318, 383, 166, 307, 234, 171, 370,
   496, 41, 104, 433, 108, 437, 500, 45, 175, 374, 311, 238, 382, 167, 230, 319, 445, 100, 37, 508, 33, 504, 441, 96, 226, 315,
   378, 163, 112, 425, 488, 49, 179, 362, 299, 242, 303, 246, 183, 366, 492, 53, 116, 429, 61, 484, 421, 124, 254, 295, 358, 191,
   354, 187, 250, 291, 417, 120, 57, 480, 326, 159, 222, 263, 389, 92, 29, 452, 25, 448, 385, 88, 218, 259, 322, 155, 267, 210,
   147, 330, 456, 17, 80, 393, 84, 397, 460, 21, 151, 334, 271, 214, 5, 476, 413, 68, 198, 287, 350, 135, 346, 131, 194, 283,
   409, 64, 1, 472, 72, 401, 464, 9, 139, 338, 275, 202, 279, 206, 143, 342, 468, 13, 76, 405, 149, 332, 269, 212, 86, 399, 462,
   23, 458, 19, 82, 395, 265, 208, 145, 328, 216, 257, 320, 153, 27, 450, 387, 90, 391, 94, 31, 454, 324, 157, 220, 261, 470, 15,
   78, 407, 277, 204, 141, 340, 137, 336, 273, 200, 74, 403, 466, 11, 411, 66, 3, 474, 344, 129, 192, 281, 196, 285, 348, 133, 7,
   478, 415, 70, 224, 313, 376, 161, 35, 506, 443, 98, 447, 102, 39, 510, 380, 165, 228, 317, 173, 372, 309, 236, 110, 439, 502,
   47, 498, 43, 106, 435, 305, 232, 169, 368, 419, 122, 59, 482, 352, 185, 248, 289, 252, 293, 356, 189, 63, 486, 423, 126, 494,
   55, 118, 431, 301, 244, 181, 364, 177, 360, 297, 240, 114, 427, 490, 51, 422, 127, 62, 487, 357, 188, 253, 292, 249, 288, 353,
   184, 58, 483, 418, 123, 491, 50, 115, 426, 296, 241, 176, 361, 180, 365, 300, 245, 119, 430, 495, 54, 229, 316, 381, 164, 38,
   511, 446, 103, 442, 99, 34, 507, 377, 160, 225, 312, 168, 369, 304, 233, 107, 434, 499, 42, 503, 46, 111, 438, 308, 237, 172,
   373, 467, 10, 75, 402, 272, 201, 136, 337, 140, 341, 276, 205, 79, 406, 471, 14, 414, 71, 6, 479, 349, 132, 197, 284, 193,
   280, 345, 128, 2, 475, 410, 67, 144, 329, 264, 209, 83, 394, 459, 18, 463, 22, 87, 398, 268, 213, 148, 333, 221, 260, 325,
   156, 30, 455, 390, 95, 386, 91, 26, 451, 321, 152, 217, 256]

/-- where the highest byte of an entry comes from -/
def inv8 : List Nat :=
  [0, 65, 195, 130, 134, 199, 69, 4, 77, 12, 142, 207, 203, 138, 8, 73, 154, 219, 89, 24, 28, 93, 223, 158, 215, 150, 20, 85, 81,
   16, 146, 211, 117, 52, 182, 247, 243, 178, 48, 113, 56, 121, 251, 186, 190, 255, 125, 60, 239, 174, 44, 109, 105, 40, 170,
   235, 162, 227, 97, 32, 36, 101, 231, 166, 234, 171, 41, 104, 108, 45, 175, 238, 167, 230, 100, 37, 33, 96, 226, 163, 112, 49,
   179, 242, 246, 183, 53, 116, 61, 124, 254, 191, 187, 250, 120, 57, 159, 222, 92, 29, 25, 88, 218, 155, 210, 147, 17, 80, 84,
   21, 151, 214, 5, 68, 198, 135, 131, 194, 64, 1, 72, 9, 139, 202, 206, 143, 13, 76, 149, 212, 86, 23, 19, 82, 208, 145, 216,
   153, 27, 90, 94, 31, 157, 220, 15, 78, 204, 141, 137, 200, 74, 11, 66, 3, 129, 192, 196, 133, 7, 70, 224, 161, 35, 98, 102,
   39, 165, 228, 173, 236, 110, 47, 43, 106, 232, 169, 122, 59, 185, 248, 252, 189, 63, 126, 55, 118, 244, 181, 177, 240, 114,
   51, 127, 62, 188, 253, 249, 184, 58, 123, 50, 115, 241, 176, 180, 245, 119, 54, 229, 164, 38, 103, 99, 34, 160, 225, 168, 233,
   107, 42, 46, 111, 237, 172, 10, 75, 201, 136, 140, 205, 79, 14, 71, 6, 132, 197, 193, 128, 2, 67, 144, 209, 83, 18, 22, 87,
   213, 148, 221, 156, 30, 95, 91, 26, 152, 217]

theorem inv9_ok : ∀ i : Fin 256, ∀ s : Bool, inv9.getD ((crcTab.getD i.1 0 ^^^ (if s then 0xff800000 else 0)) >>> 23) 0 = (if s then i.1 + 256 else i.1) := by
  decide +kernel

theorem inv8_ok : ∀ i : Fin 256, inv8.getD (crcTab.getD i.1 0 >>> 24) 0 = i.1 := by decide +kernel

theorem tab_lt : ∀ i : Fin 256, crcTab.getD i.1 0 < 2 ^ 32 := by decide +kernel

theorem table_toNat (i : BitVec 8) : (table i).toNat = crcTab.getD i.toNat 0 := by
  unfold table
  rw [BitVec.toNat_ofNat, Nat.mod_eq_of_lt (tab_lt ⟨i.toNat, i.isLt⟩)]

theorem top8 {i j : BitVec 8} (h : table i >>> 24 = table j >>> 24) : i = j := by
  have e : ∀ k : BitVec 8, inv8.getD (table k >>> 24).toNat 0 = k.toNat := by
    intro k
    rw [BitVec.toNat_ushiftRight, table_toNat]
    exact inv8_ok ⟨k.toNat, k.isLt⟩
  apply BitVec.eq_of_toNat_eq
  rw [← e i, ← e j, h]

theorem top9 {i j : BitVec 8} {s t : Bool}
    (h : (table i ^^^ (if s then 0xff800000#32 else 0#32)) >>> 23 = (table j ^^^ (if t then 0xff800000#32 else 0#32)) >>> 23) : i = j ∧ s = t := by
  have e : ∀ (k : BitVec 8) (u : Bool), inv9.getD ((table k ^^^ (if u then 0xff800000#32 else 0#32)) >>> 23).toNat 0 = (if u then k.toNat + 256 else k.toNat) := by
    intro k u
    have := inv9_ok ⟨k.toNat, k.isLt⟩ u
    rw [BitVec.toNat_ushiftRight, BitVec.toNat_xor, table_toNat]
    cases u <;> exact this
  have e1 := e i s
  rw [h, e j t] at e1
  have l1 := i.isLt
  have l2 := j.isLt
  cases s <;> cases t <;> simp only [if_true, Bool.false_eq_true, if_false] at e1
  · exact ⟨BitVec.eq_of_toNat_eq e1.symm, rfl⟩
  · omega
  · omega
  · exact ⟨BitVec.eq_of_toNat_eq (by omega), rfl⟩

theorem word_top (x : BitVec 32) : word x >>> 23 = (table (x.setWidth 8) ^^^ (if x.msb then 0xff800000#32 else 0#32)) >>> 23 := by
  ext i hi
  simp only [word, BitVec.getElem_ushiftRight, BitVec.getLsbD_xor, BitVec.getLsbD_sshiftRight]
  by_cases h : i < 9
  · have e1 : decide (32 ≤ 23 + i) = false := by simp; omega
    have e2 : (if 8 + (23 + i) < 32 then x.getLsbD (8 + (23 + i)) else x.msb) = x.msb := by
      split
      · have : i = 0 := by omega
        subst this
        rw [BitVec.msb_eq_getLsbD_last]
      · rfl
    rw [e2, e1]
    have e3 : (0xff800000#32).getLsbD (23 + i) = true := by
      have : ∀ j : Fin 9, (0xff800000#32).getLsbD (23 + j.1) = true := by decide
      exact this ⟨i, h⟩
    cases x.msb <;> simp [e3]
  · have e1 : decide (32 ≤ 23 + i) = true := by simp; omega
    have e4 : ∀ y : BitVec 32, y.getLsbD (23 + i) = false := fun y => BitVec.getLsbD_of_ge y _ (by omega)
    simp [e1, e4]

theorem shift_mono {x y : BitVec 32} {k l : Nat} (h : x >>> k = y >>> k) (hl : k ≤ l) : x >>> l = y >>> l := by
  obtain ⟨d, rfl⟩ := Nat.exists_eq_add_of_le hl
  rw [BitVec.shiftRight_add, BitVec.shiftRight_add, h]

/-- the highest bits of the result tell the lowest byte and the highest bits of the word -/
theorem word_back {x y : BitVec 32} {k : Nat} (hk : k ≤ 23) (h : word x >>> k = word y >>> k) :
    x.setWidth 8 = y.setWidth 8 ∧ x.msb = y.msb ∧ x >>> (k + 8) = y >>> (k + 8) := by
  have h1 := shift_mono h hk
  rw [word_top, word_top] at h1
  obtain ⟨e1, e2⟩ := top9 h1
  refine ⟨e1, e2, ?_⟩
  ext i hi
  have := congrArg (fun z => BitVec.getLsbD z i) h
  simp only [word, BitVec.getLsbD_ushiftRight, BitVec.getLsbD_xor, BitVec.getLsbD_sshiftRight, e1, e2] at this
  simp only [BitVec.getElem_ushiftRight]
  by_cases h3 : 32 ≤ k + 8 + i
  · rw [BitVec.getLsbD_of_ge x _ h3, BitVec.getLsbD_of_ge y _ h3]
  · have e3 : decide (32 ≤ k + i) = false := by simp; omega
    have e4 : 8 + (k + i) < 32 := by omega
    rw [e3, if_pos e4, if_pos e4] at this
    have e5 : 8 + (k + i) = k + 8 + i := by omega
    rw [e5] at this
    simpa using this

theorem low_high {x y : BitVec 32} (h1 : x.setWidth 8 = y.setWidth 8) (h2 : x >>> 8 = y >>> 8) : x = y := by
  ext i hi
  by_cases h : i < 8
  · have := congrArg (fun z => BitVec.getLsbD z i) h1
    simpa [BitVec.getLsbD_setWidth, h, hi] using this
  · have := congrArg (fun z => BitVec.getLsbD z (i - 8)) h2
    simp only [BitVec.getLsbD_ushiftRight] at this
    have e : 8 + (i - 8) = i := by omega
    rw [e] at this
    simpa [hi] using this

theorem word_inj {x y : BitVec 32} (h : word x = word y) : x = y := by
  have h' : word x >>> 0 = word y >>> 0 := by rw [h]
  obtain ⟨h1, _, h2⟩ := word_back (by omega) h'
  exact low_high h1 h2

theorem xor_high (c : BitVec 32) (b : Byte) (k : Nat) : (c ^^^ b.setWidth 32) >>> (k + 8) = c >>> (k + 8) := by
  ext i hi
  simp only [BitVec.getElem_ushiftRight, BitVec.getLsbD_xor, BitVec.getLsbD_setWidth]
  rw [BitVec.getLsbD_of_ge b _ (by omega)]
  simp

theorem xor_low {c : BitVec 32} {b b' : Byte} (h : (c ^^^ b.setWidth 32).setWidth 8 = (c ^^^ b'.setWidth 32).setWidth 8) : b = b' := by
  ext i hi
  have := congrArg (fun z => BitVec.getLsbD z i) h
  simp only [BitVec.getLsbD_setWidth, BitVec.getLsbD_xor, hi] at this
  have h32 : i < 32 := by omega
  simp only [h32, decide_true, Bool.true_and] at this
  rw [BitVec.getLsbD_eq_getElem hi, BitVec.getLsbD_eq_getElem hi] at this
  simpa using this

/-! ### Many steps -/

/-- a difference stays -/
theorem step_inj {c c' : BitVec 32} {b : Byte} (h : crcStep c b = crcStep c' b) : c = c' := by
  rw [step_word, step_word] at h
  exact (BitVec.xor_left_inj _).1 (word_inj h)

theorem steps_inj : ∀ (l : Image) {c c' : BitVec 32}, l.foldl crcStep c = l.foldl crcStep c' → c = c'
  | [], _, _, h => h
  | _ :: l, _, _, h => step_inj (steps_inj l h)

/-- the highest bits of the result of a step tell the lowest byte and the highest bits before -/
theorem step_back {c c' : BitVec 32} {b b' : Byte} {k : Nat} (hk : k ≤ 23) (h : crcStep c b >>> k = crcStep c' b' >>> k) :
    (c ^^^ b.setWidth 32).setWidth 8 = (c' ^^^ b'.setWidth 32).setWidth 8 ∧ c >>> (k + 8) = c' >>> (k + 8) := by
  rw [step_word, step_word] at h
  obtain ⟨h1, _, h2⟩ := word_back hk h
  rw [xor_high, xor_high] at h2
  exact ⟨h1, h2⟩

/-- the first of the bytes -/
theorem step_first {c : BitVec 32} {a a' : Byte} (h : crcStep c a >>> 24 = crcStep c a' >>> 24) : a = a' := by
  rw [step_word, step_word] at h
  have em : (c ^^^ a.setWidth 32).sshiftRight 8 = (c ^^^ a'.setWidth 32).sshiftRight 8 := by
    ext i hi
    simp [BitVec.getElem_sshiftRight, BitVec.msb_eq_getLsbD_last]
  unfold word at h
  rw [em] at h
  refine xor_low (c := c) (top8 ?_)
  ext i hi
  have := congrArg (fun z => BitVec.getLsbD z i) h
  simp only [BitVec.getLsbD_ushiftRight, BitVec.getLsbD_xor] at this
  simp only [BitVec.getElem_ushiftRight]
  simpa using this

theorem four_aux {c c1 c1' c2 c2' c3 c3' : BitVec 32} {a b d e a' b' d' e' : Byte} (h1 : c1 = crcStep c a) (h1' : c1' = crcStep c a')
    (h2 : c2 = crcStep c1 b) (h2' : c2' = crcStep c1' b') (h3 : c3 = crcStep c2 d) (h3' : c3' = crcStep c2' d')
    (h : crcStep c3 e = crcStep c3' e') : a = a' ∧ b = b' ∧ d = d' ∧ e = e' := by
  have h0 : crcStep c3 e >>> 0 = crcStep c3' e' >>> 0 := by rw [h]
  have g3 := step_back (k := 0) (by omega) h0
  have q3 := g3.2
  rw [h3, h3'] at q3
  have g2 := step_back (by omega) q3
  have q2 := g2.2
  rw [h2, h2'] at q2
  have g1 := step_back (by omega) q2
  have q1 := g1.2
  rw [h1, h1'] at q1
  have ha := step_first q1
  have e1 : c1' = c1 := by rw [h1, h1', ha]
  rw [e1] at g1 h2'
  have hb := xor_low g1.1
  have e2 : c2' = c2 := by rw [h2, h2', hb]
  rw [e2] at g2 h3'
  have hd := xor_low g2.1
  have e3 : c3' = c3 := by rw [h3, h3', hd]
  rw [e3] at g3
  exact ⟨ha, hb, hd, xor_low g3.1⟩

/-- four bytes are told apart -/
theorem four_inj {c : BitVec 32} {a b d e a' b' d' e' : Byte} (h : [a, b, d, e].foldl crcStep c = [a', b', d', e'].foldl crcStep c) :
    a = a' ∧ b = b' ∧ d = d' ∧ e = e' :=
  four_aux rfl rfl rfl rfl rfl rfl h

theorem updateCrc_append (a b : Image) (c : BitVec 32) : updateCrc b (updateCrc a c) = updateCrc (a ++ b) c := by
  unfold updateCrc
  rw [List.foldl_append, BitVec.xor_assoc, BitVec.xor_self, BitVec.xor_zero]

theorem updateCrc_inj {a b : Image} {c : BitVec 32} : updateCrc a c = updateCrc b c ↔ a.foldl crcStep (c ^^^ 0xffffffff#32) = b.foldl crcStep (c ^^^ 0xffffffff#32) := by
  unfold updateCrc
  exact BitVec.xor_left_inj _

/-- two texts of the same length that differ only among four bytes in a row have different checksums -/
theorem burst {p q w w' : Image} (hw : w.length = 4) (hw' : w'.length = 4) {c : BitVec 32} (h : updateCrc (p ++ w ++ q) c = updateCrc (p ++ w' ++ q) c) : w = w' := by
  rw [updateCrc_inj] at h
  simp only [List.foldl_append] at h
  have h := steps_inj q h
  match w, hw, w', hw' with
  | [a, b, d, e], _, [a', b', d', e'], _ =>
    obtain ⟨rfl, rfl, rfl, rfl⟩ := four_inj h
    rfl

/-! ### The loop -/

theorem checkLoop_eq (buf rest : Image) (n : Nat) (c : BitVec 32) : checkLoop buf rest n c = (n + buf.length + rest.length, updateCrc (buf ++ rest) c) := by
  fun_induction checkLoop buf rest n c with
  | case1 buf rest n c n' c' h =>
    have : rest = [] := by
      cases rest with
      | nil => rfl
      | cons a l => simp at h
    subst this
    simp [n', c']
  | case2 buf rest n c n' c' h ih =>
    rw [ih]
    simp only [n', c']
    rw [updateCrc_append, List.take_append_drop, List.length_take, List.length_drop]
    have : n + buf.length + min 8192 rest.length + (rest.length - 8192) = n + buf.length + rest.length := by
      rcases Nat.le_total 8192 rest.length with h | h
      · rw [Nat.min_eq_left h]; omega
      · rw [Nat.min_eq_right h]; omega
    rw [this]

/-! ### Bytes -/

theorem wr_length : ∀ (k : Nat) (m : Image) (o v : Nat), (wr m o k v).length = m.length
  | 0, _, _, _ => rfl
  | k + 1, m, o, v => by rw [wr, wr_length k]; simp

theorem wr_get_ne : ∀ (k : Nat) (m : Image) (o v i : Nat), (i < o ∨ o + k ≤ i) → (wr m o k v).getD i 0 = m.getD i 0
  | 0, _, _, _, _, _ => rfl
  | k + 1, m, o, v, i, h => by
    rw [wr, wr_get_ne k _ _ _ _ (by omega)]
    rw [List.getD_eq_getElem?_getD, List.getD_eq_getElem?_getD, List.getElem?_set]
    have : o ≠ i := by omega
    simp [this]

theorem rd_congr : ∀ (k : Nat) {m m' : Image} {o : Nat}, (∀ i, o ≤ i → i < o + k → m.getD i 0 = m'.getD i 0) → rd m o k = rd m' o k
  | 0, _, _, _, _ => rfl
  | k + 1, m, m', o, h => by
    rw [rd, rd, h o (by omega) (by omega), rd_congr k (fun i h1 h2 => h i (by omega) (by omega))]

theorem rd_wr : ∀ (k : Nat) (m : Image) (o v : Nat), o + k ≤ m.length → rd (wr m o k v) o k = v % 256 ^ k
  | 0, _, _, _, _ => by simp [rd, wr, Nat.mod_one]
  | k + 1, m, o, v, h => by
    rw [rd, wr, wr_get_ne k _ _ _ _ (by omega), rd_wr k _ _ _ (by simp; omega)]
    have : ((m.set o (BitVec.ofNat 8 v)).getD o 0).toNat = v % 256 := by
      rw [List.getD_eq_getElem?_getD, List.getElem?_set]
      have : o < m.length := by omega
      simp [this]
    rw [this, Nat.pow_succ, Nat.mul_comm (256 ^ k) 256, Nat.mod_mul]

theorem rd_lt : ∀ (k : Nat) (m : Image) (o : Nat), rd m o k < 256 ^ k
  | 0, _, _ => by simp [rd]
  | k + 1, m, o => by
    rw [rd, Nat.pow_succ]
    have := rd_lt k m (o + 1)
    have := (m.getD o 0).isLt
    omega

/-- two texts with the same bytes are the same -/
theorem image_ext {m m' : Image} (hl : m.length = m'.length) (h : ∀ i, i < m.length → m.getD i 0 = m'.getD i 0) : m = m' := by
  apply List.ext_getElem hl
  intro i h1 h2
  have := h i h1
  rw [List.getD_eq_getElem?_getD, List.getD_eq_getElem?_getD, List.getElem?_eq_getElem h1, List.getElem?_eq_getElem h2] at this
  exact this

theorem rd_inj : ∀ (k : Nat) {m m' : Image} {o : Nat}, rd m o k = rd m' o k → ∀ i, o ≤ i → i < o + k → m.getD i 0 = m'.getD i 0
  | 0, _, _, _, _, _, _, _ => by omega
  | k + 1, m, m', o, h, i, h1, h2 => by
    rw [rd, rd] at h
    have l1 := (m.getD o 0).isLt
    have l2 := (m'.getD o 0).isLt
    by_cases e : i = o
    · subst e; exact BitVec.eq_of_toNat_eq (by omega)
    · exact rd_inj k (o := o + 1) (by omega) i (by omega) (by omega)

theorem rd_zero_get {m : Image} {o k : Nat} (h : rd m o k = 0) {i : Nat} (h1 : o ≤ i) (h2 : i < o + k) : m.getD i 0 = 0 := by
  have e : ∀ (k o : Nat), rd ([] : Image) o k = 0 := by
    intro k
    induction k with
    | zero => intro o; rfl
    | succ k ih => intro o; rw [rd, ih]; rfl
  have := rd_inj k (h.trans (e k o).symm) i h1 h2
  rw [this]; rfl

theorem wr_zero_get : ∀ (k : Nat) (m : Image) (o i : Nat), o ≤ i → i < o + k → (wr m o k 0).getD i 0 = 0
  | 0, _, _, _, _, _ => by omega
  | k + 1, m, o, i, h1, h2 => by
    rw [wr, Nat.zero_div]
    by_cases e : i = o
    · subst e
      rw [wr_get_ne k _ _ _ _ (by omega), List.getD_eq_getElem?_getD, List.getElem?_set]
      by_cases hl : i < m.length
      · simp [hl]
      · simp [hl]
    · exact wr_zero_get k _ _ _ (by omega) (by omega)

theorem getD_take {m : Image} {n i : Nat} (h : i < n) : (m.take n).getD i 0 = m.getD i 0 := by
  rw [List.getD_eq_getElem?_getD, List.getD_eq_getElem?_getD, List.getElem?_take, if_pos h]

theorem getD_drop (m : Image) (n i : Nat) : (m.drop n).getD i 0 = m.getD (n + i) 0 := by
  rw [List.getD_eq_getElem?_getD, List.getD_eq_getElem?_getD, List.getElem?_drop]

theorem getD_append_left {a b : Image} {i : Nat} (h : i < a.length) : (a ++ b).getD i 0 = a.getD i 0 := by
  rw [List.getD_eq_getElem?_getD, List.getD_eq_getElem?_getD, List.getElem?_append_left h]

theorem getD_append_right {a b : Image} {i : Nat} (h : a.length ≤ i) : (a ++ b).getD i 0 = b.getD (i - a.length) 0 := by
  rw [List.getD_eq_getElem?_getD, List.getD_eq_getElem?_getD, List.getElem?_append_right h]

theorem rd_take {m : Image} {n o k : Nat} (h : o + k ≤ n) : rd (m.take n) o k = rd m o k :=
  rd_congr k fun _ _ h2 => getD_take (by omega)

theorem wr_take_drop {m : Image} {n o k v : Nat} (h : o + k ≤ n) : wr (m.take n) o k v ++ m.drop n = wr m o k v := by
  induction k generalizing m o v with
  | zero => simp [wr]
  | succ k ih =>
    rw [wr, wr, ← List.take_set]
    have : m.drop n = (m.set o (BitVec.ofNat 8 v)).drop n := by rw [List.drop_set_of_lt (by omega)]
    rw [this]
    exact ih (by omega)

/-! ### Checking -/

theorem compat_congr {B : Build} {m m' : Image} (h : ∀ i, i < 12 → m.getD i 0 = m'.getD i 0) : compat B m = compat B m' := by
  have e1 : mark m = mark m' := rd_congr 4 fun i _ h2 => h i (by omega)
  have e2 : version m = version m' := rd_congr 4 fun i _ h2 => h i (by omega)
  have e3 : features m = features m' := rd_congr 4 fun i _ h2 => h i (by omega)
  unfold compat
  rw [e1, e2, e3]

/-- wg_check_dump in one formula -/
theorem check_eq (B : Build) (f : Image) : check B f =
    if f.length < 8192 then (-1, 0, 0)
    else if compat B f ≠ 0 then (-2, 0, 0)
    else if (f.length : Int) = free f ∧ updateCrc (wr f 12 4 0) 0 = BitVec.ofNat 32 (checksum f) then (0, free f, size f)
    else (-3, free f, size f) := by
  unfold check
  by_cases h : f.length < 8192
  · rw [if_pos h, if_pos h]
  · rw [if_neg h, if_neg h]
    have e1 : compat B (f.take 8192) = compat B f := compat_congr fun i hi => getD_take (by omega)
    have e2 : free (f.take 8192) = free f := congrArg gint (rd_take (by omega))
    have e3 : size (f.take 8192) = size f := congrArg gint (rd_take (by omega))
    have e4 : checksum (f.take 8192) = checksum f := rd_take (by omega)
    have e5 : 0 + (wr (f.take 8192) 12 4 0).length + (f.drop 8192).length = f.length := by
      rw [wr_length, List.length_take, List.length_drop, Nat.min_eq_left (by omega)]
      omega
    simp only [e1, e2, e3, e4, checkLoop_eq, e5, wr_take_drop (show 12 + 4 ≤ 8192 by omega)]
    split
    · rfl
    · split
      · rename_i h2
        rw [if_neg (fun h => h2 h.1)]
      · split
        · rename_i h2 h3
          rw [if_neg (fun h => h3 h.2)]
        · rename_i h2 h3
          rw [if_pos ⟨Decidable.of_not_not h2, Decidable.of_not_not h3⟩]

/-! ### Locks -/

theorem linkCells_length : ∀ (k : Nat) (m : Image) (i : Nat), (linkCells m i k).length = m.length
  | 0, _, _ => rfl
  | k + 1, m, i => by rw [linkCells, linkCells_length k, wr_length]

theorem linkCells_get_ne : ∀ (k : Nat) (m : Image) (i x : Nat), (∀ j, j < k → x < i + 128 * j ∨ i + 128 * j + 8 ≤ x) →
    (linkCells m i k).getD x 0 = m.getD x 0
  | 0, _, _, _, _ => rfl
  | k + 1, m, i, x, h => by
    have h0 := h 0 (by omega)
    rw [linkCells, linkCells_get_ne k, wr_get_ne 8 _ _ _ _ (by omega)]
    intro j hj
    have := h (j + 1) (by omega)
    omega

theorem linkCells_rd : ∀ (k : Nat) (m : Image) (i j : Nat), j < k → i + 128 * k ≤ m.length → m.length < 2 ^ 63 →
    rd (linkCells m i k) (i + 128 * j) 8 = i + 128 * (j + 1)
  | 0, _, _, _, h, _, _ => by omega
  | k + 1, m, i, j, h, hl, hs => by
    rw [linkCells]
    cases j with
    | zero =>
      have : rd (linkCells (wr m i 8 (i + 128)) (i + 128) k) (i + 128 * 0) 8 = rd (wr m i 8 (i + 128)) i 8 := by
        refine rd_congr 8 fun x h1 h2 => linkCells_get_ne k _ _ _ fun j hj => ?_
        omega
      rw [this, rd_wr 8 _ _ _ (by omega)]
      exact Nat.mod_eq_of_lt (by omega)
    | succ j =>
      have := linkCells_rd k (wr m i 8 (i + 128)) (i + 128) j (by omega) (by rw [wr_length]; omega) (by rw [wr_length]; omega)
      have e1 : i + 128 + 128 * j = i + 128 * (j + 1) := by omega
      rw [e1] at this
      rw [this]
      omega

end Gkc.Dump
