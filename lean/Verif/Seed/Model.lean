import Mathlib.Data.Int.Notation
import Mathlib.Algebra.Order.Ring.Int
import Mathlib.Algebra.Order.Group.Abs

/-!
# The seeds of the random number generators

Model of `utils/RandomSeed.h` and `utils/RandomSeed.cpp`. The clock `time(NULL)` and the number `randomInteger()` of the call are arguments. The sum is taken in
the integers (`time_t` has 64 bits) and the generator keeps it modulo 2³², which is what `std::mt19937` does with its seed.
-/

set_option autoImplicit false

namespace Leonard

/-- `seed`, `RandomSeed.h:8-17`. -/
def seedTable : List ℕ :=
  [373957, 49302, 35053, 356015, 235267, 45143, 315659, 471471, 358218, 449760, 432000, 387773, 48803, 99438, 168376, 363277,
   352803, 78914, 94345, 101829, 275761, 125693, 61063, 443498, 160974, 463757, 224477, 63365, 171859, 348012, 181012, 266524,
   109077, 168878, 60720, 198919, 29429, 198325, 410117, 342224, 209708, 178677, 433616, 391575, 200849, 345018, 356971, 153416,
   183625, 121448, 488309, 233398, 90836, 172321, 26818, 483312, 301704, 406728, 461334, 298067, 385252, 415793, 125322, 445546,
   439541, 101453, 361846, 309895, 346269, 32706, 297150, 335311, 66015, 206871, 439648, 207696, 431963, 3307, 453760, 366860,
   460359, 392996, 46570, 426364, 387518, 360791, 449357, 267543, 368515, 497558, 427243, 148397, 290188, 47958, 17964, 250017,
   480095, 127829, 257049, 164454, 178891, 215725, 244052, 237997, 225990, 87820, 105329, 494855, 118856, 144446, 335127, 462053,
   444511, 133546, 422186, 176353, 92399, 478406, 481268, 429113, 246148, 96929, 384259, 325385, 156891, 124843, 27062, 445690]

/-- `mpiseed`, `RandomSeed.h:19-52`. -/
def mpiSeedTable : List ℕ :=
  [126385, 126546, 310456, 383258, 380386, 131277, 380126, 394716, 169905, 242200, 408273, 209592, 183492, 312965, 109468, 53135,
   18019, 129074, 67140, 430212, 128021, 476117, 191023, 306865, 433489, 25253, 496800, 387859, 412085, 313663, 486874, 31691,
   211456, 480028, 194120, 104702, 186452, 53312, 35676, 345807, 181548, 264845, 178188, 454338, 346548, 393871, 81370, 14447,
   428269, 300348, 13077, 427168, 147133, 256481, 233988, 214804, 336827, 351818, 123506, 242599, 251651, 180824, 292344, 480255,
   99454, 346210, 384923, 239556, 216978, 320936, 243721, 130360, 145783, 102697, 104047, 31712, 62148, 145349, 146587, 409735,
   472540, 149188, 24290, 498178, 457015, 122090, 496954, 102522, 356339, 213399, 130335, 131179, 388051, 300466, 188200, 47165,
   347543, 34677, 43387, 84909, 68500, 346228, 313868, 497845, 382422, 199517, 190142, 149474, 250581, 234038, 423461, 228468,
   98412, 431100, 427904, 318935, 423642, 72104, 346114, 491497, 26074, 366025, 251458, 348998, 26088, 122079, 102466, 328606,
   331829, 281014, 164156, 38617, 177688, 44605, 171944, 201204, 122260, 10777, 369493, 481850, 307049, 285440, 343143, 187236,
   444539, 163633, 488806, 343762, 248247, 148703, 419676, 438306, 472726, 133369, 249973, 364988, 432023, 50648, 287746, 2224,
   356879, 472144, 317303, 69101, 153622, 413852, 229821, 361168, 322852, 464973, 151240, 440945, 170960, 276939, 444307, 122314,
   454582, 42496, 281058, 293835, 298681, 131347, 381449, 295093, 423938, 121417, 432396, 59245, 227553, 412150, 195414, 63771,
   430363, 120493, 88205, 155545, 155451, 9734, 331801, 252473, 426956, 267344, 28834, 88467, 230905, 165785, 375496, 297281,
   133487, 301209, 133815, 121016, 484644, 222064, 96066, 329510, 66563, 415139, 63599, 211601, 106706, 460229, 172210, 250427,
   322570, 297202, 82042, 377050, 396228, 486078, 479884, 457805, 463701, 243523, 498438, 324930, 39327, 338199, 232645, 283947,
   329782, 481047, 138747, 307311, 286644, 167674, 281155, 72675, 336501, 293108, 289639, 7905, 9314, 175649, 220638, 255235,
   447795, 499106, 196946, 436411, 474750, 81469, 288653, 287210, 306028, 394376, 236419, 174271, 100474, 263091, 475511, 468780,
   208776, 243944, 322043, 392292, 358175, 492529, 232872, 452675, 248378, 18555, 242762, 382078, 498033, 301918, 69527, 353353,
   117254, 481627, 321256, 73896, 250917, 407700, 190837, 44803, 37367, 9708, 252959, 7206, 190126, 1985, 272588, 435161,
   409267, 295278, 312620, 80236, 329168, 319674, 160333, 113747, 211150, 442833, 119763, 183848, 289659, 287855, 18484, 205205,
   467636, 465677, 206196, 479806, 328723, 278532, 34782, 185544, 23678, 460904, 324918, 135021, 105622, 443530, 464558, 496409,
   449695, 349362, 78563, 260950, 11476, 416617, 137732, 151330, 293404, 306039, 303751, 257687, 472126, 441256, 209294, 356220,
   320739, 362714, 227939, 141860, 398981, 357991, 28229, 253145, 482898, 262682, 125689, 191475, 452699, 406340, 130985, 425497,
   345649, 135834, 132799, 435635, 481032, 151543, 385293, 99926, 490873, 132152, 71997, 20568, 50856, 207553, 363798, 324535,
   121417, 185688, 294392, 410099, 204685, 491190, 186016, 163032, 471254, 102286, 3223, 308187, 312913, 256040, 229915, 209325,
   302286, 8695, 70797, 178601, 384203, 492189, 28696, 209168, 251419, 389726, 498477, 457645, 417557, 68373, 192144, 484583,
   145452, 302917, 44352, 241855, 419205, 459290, 151565, 114825, 248464, 137547, 475, 344615, 356781, 383782, 293753, 362530,
   434957, 48363, 468494, 40671, 332427, 90132, 429179, 306759, 24336, 115985, 235287, 443653, 247083, 55425, 406776, 192280,
   91337, 463064, 138408, 455889, 33036, 381705, 296426, 161079, 382262, 366735, 41537, 53279, 259240, 402665, 131622, 420464,
   115625, 89, 300828, 141031, 59801, 257448, 336772, 208103, 164188, 355737, 304565, 303471, 286706, 232586, 326044, 414738,
   377721, 278920, 40564, 353171, 454030, 203557, 291053, 477157, 444807, 104825, 290264, 440707, 110770, 426065, 227531, 42420,
   499118, 260998, 168212, 194020, 8764, 265167, 200200, 183213, 222851, 186959, 265552, 205540, 186924, 481940, 116130, 128354]

/-- What the number of the process adds to the seed, `RandomSeed.cpp:26`. -/
def processOffset (rank : ℕ) : ℕ := mpiSeedTable.getD (rank % 512) 0 + (12 * rank + 13) % (512 - 1)

/-- `randomSeed` with MPI, `RandomSeed.cpp:17-28`, for the call number `counter` of the process. -/
def randomSeedMpi (counter rank : ℕ) (clock rnd : ℤ) : ℤ := |(seedTable.getD (counter % 128) 0 : ℤ) + processOffset rank + clock + rnd|

/-- `randomSeed` without MPI, `RandomSeed.cpp:17-22`. -/
def randomSeedSerial (counter : ℕ) (clock rnd : ℤ) : ℤ := |(seedTable.getD (counter % 23) 0 : ℤ) + clock + rnd|

/-- The word from which `std::mt19937` starts. -/
def generatorState (s : ℤ) : ℤ := s % 2 ^ 32

end Leonard
