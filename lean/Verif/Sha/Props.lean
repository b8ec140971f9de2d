import Verif.Sha.Stream

/-!
# C79: the hash of `sha256_signature` and of all other signatures is SHA-256 of what is printed
-/
namespace Voss.Sha

/-- The cube roots of the primes, times 2^32, rounded down. -/
def cubeRoots : List Nat := [5411319704, 6194414737, 7344290767, 8215976869, 9551921755, 10098905585, 11043570340, 11460697813,
  12214315672, 13195500289, 13492127166, 14311783875, 14809980276, 15046980094, 15499789991, 16133124468,
  16720292289, 16907126662, 17444216262, 17784676812, 17950125167, 18429019306, 18734950876, 19175934170,
  19734090066, 20001703533, 20132865992, 20390182855, 20516441075, 20764397895, 21588763473, 21813078375,
  22141143685, 22248366392, 22769593852, 22871018771, 23170020180, 23461497531, 23651862830, 23931792517,
  24205322401, 24295138891, 24734567280, 24820601251, 24990902297, 25075189284, 25569408389, 26045227120,
  26200031510, 26276752392, 26428864332, 26653801653, 26727943347, 27092625994, 27306805839, 27517677555,
  27725365998, 27793908591, 27997534228, 28131656200, 28198240250, 28526537963, 28973835255, 29099129074]

theorem cubeRoots_ok : ∀ i < 64, (cubeRoots.getD i 0) ^ 3 ≤ Fips.primes.getD i 0 * 2 ^ 96 ∧
    Fips.primes.getD i 0 * 2 ^ 96 < (cubeRoots.getD i 0 + 1) ^ 3 ∧
    (K32.getD i 0).toNat = cubeRoots.getD i 0 % 2 ^ 32 := by decide +kernel

/-- **C79, the constants.**  The table of sixty-four constants and the eight initial values of the program are those of the
standard: the first 32 bits of the fractional parts of the cube roots of the first sixty-four primes and of the square
roots of the first eight. -/
theorem c79_constants : Fips.Constants K32 H32 where
  length := by decide +kernel
  cube := fun i hi => ⟨cubeRoots.getD i 0, cubeRoots_ok i hi⟩
  a := ⟨6074000999, by decide +kernel⟩
  b := ⟨7439101573, by decide +kernel⟩
  c := ⟨9603838834, by decide +kernel⟩
  d := ⟨11363415354, by decide +kernel⟩
  e := ⟨14244795007, by decide +kernel⟩
  f := ⟨15485724812, by decide +kernel⟩
  g := ⟨17708603819, by decide +kernel⟩
  h := ⟨18721328409, by decide +kernel⟩

theorem hexDigit_eq (n : Nat) (h : n < 16) : hexDigit n = Nat.digitChar n := by
  revert n; decide

/-- **C79.**  Whatever is left in the buffer of a recycled record, and in whatever pieces of at most 4095 bytes the text is
printed, the hash is SHA-256 of the whole text, in sixty-four hexadecimal digits, for every text of less than 2^64 bits. -/
theorem c79_sha256 : ∃ k h0, Fips.Constants k h0 ∧ ∀ (junk : List Byte) (texts : List (List Byte)), junk.length = 64 →
    (∀ t ∈ texts, t.length ≤ 4095) → 8 * texts.flatten.length < 2 ^ 64 →
    hashOf junk texts = (Fips.sha256 k h0 texts.flatten).flatMap Fips.hex := by
  refine ⟨K32, H32, c79_constants, ?_⟩
  intro junk texts hj ht hb
  have hfold : ∀ (l : List (List Byte)) (c : Ctx), (∀ t ∈ l, t.length ≤ 4095) → l.foldl shaPrintf c = l.foldl update c := by
    intro l
    induction l with
    | nil => intro c _; rfl
    | cons t l ih =>
      intro c h
      rw [List.foldl_cons, List.foldl_cons, ih _ (fun x hx => h x (List.mem_cons_of_mem _ hx))]
      unfold shaPrintf
      rw [List.take_of_length_le (h t List.mem_cons_self)]
  unfold hashOf
  rw [hfold texts _ ht]
  obtain ⟨h1, h2⟩ := fold_updates texts (init junk) [] H32 (init_holds junk hj) (init_counts junk)
    (fun t h => by have := ht t h; omega) (by simpa using hb)
  rw [List.nil_append] at h1 h2
  unfold getHash
  rw [final_holds _ _ _ h1 h2]
  congr 1
  funext b
  have := b.isLt
  rw [Fips.hex, hexDigit_eq _ (by omega), hexDigit_eq _ (by omega)]

/-- How a text is split into calls does not matter. -/
theorem c79_pieces (junk junk' : List Byte) (texts texts' : List (List Byte)) (hj : junk.length = 64)
    (hj' : junk'.length = 64) (h : ∀ t ∈ texts, t.length ≤ 4095) (h' : ∀ t ∈ texts', t.length ≤ 4095)
    (he : texts.flatten = texts'.flatten) (hb : 8 * texts.flatten.length < 2 ^ 64) :
    hashOf junk texts = hashOf junk' texts' := by
  obtain ⟨k, h0, _, hk⟩ := c79_sha256
  rw [hk junk texts hj h hb, hk junk' texts' hj' h' (he ▸ hb), he]

/-- The digest of the standard has thirty-two bytes, so that the hash has sixty-four digits. -/
theorem c79_length (k : List W32) (h0 : Regs W32) (m : List Byte) :
    (Fips.sha256 k h0 m).length = 32 ∧ ((Fips.sha256 k h0 m).flatMap Fips.hex).length = 64 := by
  have : (Fips.sha256 k h0 m).length = 32 := by simp [Fips.sha256, Fips.bytes]
  refine ⟨this, ?_⟩
  rw [List.length_flatMap]
  have : ((Fips.sha256 k h0 m).map fun b => (Fips.hex b).length) = List.replicate 32 2 := by
    rw [← this]
    exact List.eq_replicate_iff.2 ⟨by simp, by intro x hx; simp [Fips.hex] at hx; exact hx.2.symm⟩
  rw [this]; rfl

/-- The padding of the standard is the least that makes the length a multiple of 64 bytes. -/
theorem c79_pad (m : List Byte) : (Fips.pad m).length % 64 = 0 ∧ (Fips.pad m).length < m.length + 9 + 64 := by
  simp only [Fips.pad, List.length_append, List.length_replicate, List.length_map, List.length_range, List.length_cons,
    List.length_nil]
  omega

/-- The test vector of the standard, and one of two blocks, in pieces. -/
example : hashOf (List.replicate 64 7) [[97, 98], [99]] =
    "ba7816bf8f01cfea414140de5dae2223b00361a396177a9cb410ff61f20015ad".toList := by decide +kernel
example : hashOf (List.replicate 64 255)
    ["abcdbcdecdefdefgefghfghighijhijkijkl".toList.map (fun c => BitVec.ofNat 8 c.toNat),
      "jklmklmnlmnomnopnopq".toList.map (fun c => BitVec.ofNat 8 c.toNat)] =
    "248d6a61d20638b8e5c026930c3e6039a33ce45964ff2167f6ecedd419db06c1".toList := by decide +kernel

/-- **C79, long pieces.**  A piece longer than 4095 bytes is cut off: two texts that differ only after that have the same
hash. -/
theorem c79_long_violated (junk pre s t : List Byte) (h : pre.length = 4095) :
    hashOf junk [pre ++ s] = hashOf junk [pre ++ t] := by
  simp only [hashOf, List.foldl_cons, List.foldl_nil, shaPrintf]
  rw [List.take_append_of_le_length (by omega), List.take_append_of_le_length (by omega)]

end Voss.Sha
