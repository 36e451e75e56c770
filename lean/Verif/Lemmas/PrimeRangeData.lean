import Verif.Lemmas.PrimeRange

/-!
# The search of Lemmas/PrimeRange up to 2^27

Generated by tools/primerange.py: the checks of the kernel, in pieces.
-/

namespace ICPC.PrimeRange

/-- The search for the `i`-th odd number from 133 on, with 131! as the product of small factors. -/
noncomputable def small (i : Nat) : Bool := primeOk (nat_lit 134217728) (nat_lit 847158069087882051098456875815279568163352087665474498775849754305766436915303927682164623187034167333264599970492141556534816949699515865660644961729169613882287309922474300878212776434073600000000000000000000000000000000) (Nat.add (Nat.mul (nat_lit 2) i) (nat_lit 133))

/-- The search for the `i`-th odd number from 133 on, with 181! as the product of small factors. -/
noncomputable def large (i : Nat) : Bool := primeOk (nat_lit 134217728) (nat_lit 36362187312343308237908191978622497844074801684595067807218795663968119832564672550353604998289613062149318532287769329350456815925726000644523337334285978306103163294146384971986648048091326497552386466930424881860855684345291680413833226169665212441092813294256787492335190489473168179200000000000000000000000000000000000000000000) (Nat.add (Nat.mul (nat_lit 2) i) (nat_lit 133))

theorem small_3_0 : rng small 3 0 = true := by decide +kernel
theorem small_3_8 : rng small 3 8 = true := by decide +kernel
theorem small_4_0 : rng small 4 0 = true := rng_join small_3_0 small_3_8
theorem small_3_16 : rng small 3 16 = true := by decide +kernel
theorem small_3_24 : rng small 3 24 = true := by decide +kernel
theorem small_4_16 : rng small 4 16 = true := rng_join small_3_16 small_3_24
theorem small_5_0 : rng small 5 0 = true := rng_join small_4_0 small_4_16
theorem large_4_32 : rng large 4 32 = true := by decide +kernel
theorem large_4_48 : rng large 4 48 = true := by decide +kernel
theorem large_5_32 : rng large 5 32 = true := rng_join large_4_32 large_4_48
theorem large_5_64 : rng large 5 64 = true := by decide +kernel
theorem large_5_96 : rng large 5 96 = true := by decide +kernel
theorem large_6_64 : rng large 6 64 = true := rng_join large_5_64 large_5_96
theorem large_6_128 : rng large 6 128 = true := by decide +kernel
theorem large_6_192 : rng large 6 192 = true := by decide +kernel
theorem large_7_128 : rng large 7 128 = true := rng_join large_6_128 large_6_192
theorem large_7_256 : rng large 7 256 = true := by decide +kernel
theorem large_7_384 : rng large 7 384 = true := by decide +kernel
theorem large_8_256 : rng large 8 256 = true := rng_join large_7_256 large_7_384
theorem large_8_512 : rng large 8 512 = true := by decide +kernel
theorem large_8_768 : rng large 8 768 = true := by decide +kernel
theorem large_9_512 : rng large 9 512 = true := rng_join large_8_512 large_8_768
theorem large_9_1024 : rng large 9 1024 = true := by decide +kernel
theorem large_9_1536 : rng large 9 1536 = true := by decide +kernel
theorem large_10_1024 : rng large 10 1024 = true := rng_join large_9_1024 large_9_1536
theorem large_10_2048 : rng large 10 2048 = true := by decide +kernel
theorem large_10_3072 : rng large 10 3072 = true := by decide +kernel
theorem large_11_2048 : rng large 11 2048 = true := rng_join large_10_2048 large_10_3072
theorem large_11_4096 : rng large 11 4096 = true := by decide +kernel
theorem large_11_6144 : rng large 11 6144 = true := by decide +kernel
theorem large_12_4096 : rng large 12 4096 = true := rng_join large_11_4096 large_11_6144

end ICPC.PrimeRange
