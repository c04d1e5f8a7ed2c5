/-
Model of ecc/gf13.h and ecc/gf13.c, both variants: with tables and with GF13_NO_TABLES. `gf13_elem_t` (16 bits) is a natural
number; every intermediate value stays below 2^16 (a shift `a << 1` of an element below 2^13, a sum of two logarithms), so nothing
is truncated.
-/
namespace Dhara.Gf13

/-- ecc/gf13.h:23 GF13_ORDER -/
notation "gfOrder" => (8191 : Nat)

/-- ecc/gf13.c:56-1081, part 0 of `gf13_log`: 64 rows of 8 entries; each number is one row, four hexadecimal digits per
entry, in the order of the source. -/
def logPart0 : List Nat :=
  [0x00001fff000103a60002074c03a718c0, 0x00031c66074d01ea03a8005d18c10af2, 0x00040e981c67183e074e118101eb0403,
   0x03a9119c005e000d18c205900af31877, 0x00051c1d0e99191d1c680d6f183f0936, 0x074f13d91182154201ec03b304041395,
   0x03aa1aaa119d123e005f1be4000e0bda, 0x18c307a905911d350af419ae18781527, 0x000618cd1c1e174b0e9a03d4191e1d54,
   0x1c69057f0d700b4f184000dc09370a5d, 0x075000ba13da1e50118315e41543155a, 0x01ed0f8003b405f30405113813961f8a,
   0x03ab01221aab1fc3119e1cc3123f164b, 0x00600cdc1be50a42000f1eb90bdb1115, 0x18c4173b07aa094b059214441d360759,
   0x0af510ff19af177f187918e815280247, 0x000705ed18ce091f1c1f049b174c1c8e, 0x0e9b13ac03d514a5191f1b251d551fe1,
   0x1c6a169f05801ae10d710cf10b50136b, 0x18410aff00dd18d40938194d0a5e17ea, 0x075115f600bb04c813db036a1e511bbb,
   0x118419f115e502f215441a28155b006a, 0x01ee14bb0f81126f03b511f905f40260, 0x040601b91139108213970de81f8b1674,
   0x03ac1a2101231c731aac1af11fc4189b, 0x119f00fb1cc4014212400c56164c077a, 0x00610e030cdd13091be618ad0a430482,
   0x00101a611eba09250bdc0ef511160c9a, 0x18c50331173c138607ab0f4a094c14de, 0x059311de144513261d370999075a1d67,
   0x0af61ef81100046019b001f717800340, 0x187a190018e90630152902850248198a, 0x00081d3005ee177a18cf107d0920062b,
   0x1c20157f049c1ca6174d09d61c8f1d92, 0x0e9c030313ad029f03d6080614a60a14, 0x192006e61b261c251d56101a1fe2059d,
   0x1c6b1a0b16a006d70581172c1ae219e2, 0x0d7218840cf207ba0b51012a136c12f0, 0x1842010e0b0015c300de0f0c18d50d3f,
   0x0939043b194e15840a5f16cc17eb0fe8, 0x0752033915f71dc700bc001a04c90f59, 0x13dc1c41036b0d051e520abf1bbc1e97,
   0x11850b2019f20c3715e610ef02f30ffc, 0x1545020c1a2904a1155c04e8006b102b, 0x01ef104014bc0fd50f8208521270129b,
   0x03b60c7911fa1e0705f50ccb026109c0, 0x0407056d01ba11a9113a16af108315fe, 0x139808280de91cab1f8c1b0716751c53,
   0x03ad1eb31a22099301240cc51c740318, 0x1aad00351af201791fc50b3a189c0841, 0x11a0038800fc09f91cc51f1f01431ecb,
   0x12410dcc0c571752164d184b077b14ed, 0x00621b900e040bf00cde0e1b130a1cf3, 0x1be7067318ae0ea50a441c7a04831b98,
   0x00110c041a621a451ebb1e870926197a, 0x0bdd17110ef609db111710cf0c9b1097, 0x18c61a1a03321a13173d14361387118e,
   0x07ac100c0f4b055f094d142814df0665, 0x059410b611df18611446161513270423, 0x1d380606099a1c94075b053e1d68159f,
   0x0af70dc41ef9199c1101086e04610e7c, 0x19b11f6101f813f21781031e03410710, 0x187b04101901095b18ea104806311dce,
   0x152a1f4702861d9702490698198b1e3f]

/-- ecc/gf13.c:56-1081, part 1 of `gf13_log`: 64 rows of 8 entries; each number is one row, four hexadecimal digits per
entry, in the order of the source. -/
def logPart1 : List Nat :=
  [0x000901e61d31153e05ef0b4b177b0a3e, 0x18d014a1107e02ee0921013e062c1322, 0x1c211ca2158007b6049d0d011ca71e03,
   0x174e017509d70ea11c90055b1d9313ee, 0x0e9d02ea0304116a13ae1d4202a009a8, 0x03d712220807116e14a71ab30a150c14,
   0x19210ab606e70a881b2707dd1c2606c4, 0x1d570bca101b03081fe31798059e05ae, 0x1c6c17441a0c1dc016a11db906d812e2,
   0x05821534172d1d461ae3045219e317dc, 0x0d730a0b18850ed20cf3115c07bb17ce, 0x0b5207d3012b13b2136d090512f11487,
   0x18431945010f05170b010f6c15c408e4, 0x00df0b6b0f0d09ac18d6003b0d400b75, 0x093a1a02043c145c194f1c07158500c3,
   0x0a6007c916cd02a417ec06140fe919bb, 0x07530bd4033a025a15f80d391dc81974, 0x00bd06be001b122604ca16280f5a106b,
   0x13dd0be71c420769036c09710d060ee0, 0x1e531f010ac003db1bbd051f1e980a9f, 0x118618930b21146d19f3054c0c381bf1,
   0x15e70c4710f0117202f41af80ffd0e0c, 0x15461f16020d072e1a2a0d9f04a2122c, 0x155d027204e9080b006c089a102c02c6,
   0x01f0143d104116a814bd1c000fd61475, 0x0f8315ad08531ab712710d81129c1349, 0x03b7065c0c7a0faa11fb1deb1e0817b9,
   0x05f61d200ccc14ab0262193509c1022e, 0x04081ef0056e1f3601bb0f9611aa05be, 0x113b009a16b00c181084017f15ff11c1,
   0x13991f3e08291b450dea14c41cac0021, 0x1f8d16601b080a191676124b1c541d76, 0x03ae00581eb400d71a231b2009940c51,
   0x012509d10cc60aba1c750b3503191423, 0x1aae01390036044d1af31623017a0d7c, 0x1fc60b300b3b1925189d004d084210bf,
   0x11a109430389145400fd05dc09fa13c0, 0x1cc604191f200a8c01441fcb1ecc1a79, 0x1242027c0dcd06a90c5806451753162e,
   0x164e0dba184c06eb077c0f3514ee0bac, 0x0063138e1b9112e90e050c0d0bf11a72, 0x0cdf0fcb0e1c07e1130b192a1cf41335,
   0x1be81bb2067404b418af19690ea617a8, 0x0a4510e51c7b1b2b04841f0b1b9912b2, 0x001203cc0c051db11a630a7d1a460eb7,
   0x1ebc1d881e8806c809270b40197b1ad2, 0x0bde1696171203910ef7147c09dc04d0, 0x1118043110d01c2a0c9c0b6010980e4d,
   0x18c71ff91a1b05e703331d2a1a141ead, 0x173e01e014370bce13880052118f1ff3, 0x07ad1835100d09130f4c154f056011ed,
   0x094e19a414291d5b14e0011706661a55, 0x0595186f10b713e611e0137b18620532, 0x144716411616030c132818a204240bf8,
   0x1d390d66060715b7099b1fd61c951071, 0x075c00b0053f101f1d6901ae15a00c6d, 0x0af811950dc506df1efa016e199d0b29,
   0x110212ff086f179c046210c40e7d03c0, 0x19b2023e1f62120e01f90e7113f30e65, 0x17820f40031f1fe7034210ab071100a4,
   0x187c13d10411121a19020c2c095c088e, 0x18eb166a104905b2063208471dcf0650, 0x152b05761f480ec602870fdd1d980f60,
   0x024a13a2069905a2198c15741e401495]

/-- ecc/gf13.c:56-1081, part 2 of `gf13_log`: 64 rows of 8 entries; each number is one row, four hexadecimal digits per
entry, in the order of the source. -/
def logPart2 : List Nat :=
  [0x000a183b01e703a31d32123b153f191a, 0x05f01e4d0b4c1748177c09480a3f1fc0, 0x18d11ade14a2091c107f126c02ef04c5,
   0x09221306013f1c70062d045d13231383, 0x1c22029c1ca31777158115c007b706d4, 0x049e0c340d021dc41ca811a61e040fd2,
   0x174f09f60176099009d81a420ea20bed, 0x1c91185e055c1a101d94095813ef1999, 0x0e9e07b302eb153b03050a85116b1167,
   0x13af0ecf1d431dbd02a1145909a90514, 0x03d80766122302570808072b116f146a, 0x14a80fa71ab416a50a161b420c151f33,
   0x1922044a0ab700d406e806a60a891451, 0x1b2804b107de12e61c27038e06c51dae, 0x1d5809100bcb05e4101c15b4030913e3,
   0x1fe4120b179906dc059f0ec305af1217, 0x1c6d0919174503a01a0d098d1dc11774, 0x16a202541dba153806d905e112e300d1,
   0x0583039a1535039d172e1bd81d4703f8, 0x1ae411090453058619e40f7417dd1c12, 0x0d741dfb0a0c03fb188604dc0ed304bd,
   0x0cf4061f115d1d4a07bc010217cf0ce6, 0x0b531a3907d41bdb012c0cb913b3076f, 0x136e15930906173112f21f55148818f5,
   0x18441013194605890110004605180554, 0x0b020e590f6d045615c513c508e5068d, 0x00e01da50b6c110c0f0e195d09ad1ce8,
   0x18d71417003c1ae70d410dae0b76037d, 0x093b02e21a031c15043d178c145d0294, 0x195008d81c0817e0158609ff00c41721,
   0x0a610f9e07ca0f7716ce0f8a02a51c48, 0x17ed02ba061519e70fea06b219bc1c36, 0x075415550bd503fe033b047d025b1366,
   0x15f90ff70d3a0a0f1dc9041e19751ec6, 0x00be17c906bf1dfe001c17b412270edb, 0x04cb17a316290d770f5b0e60106c11e8,
   0x13de14650be804c01c431ce3076a03f3, 0x036d190a09720ed60d071ccb0ee107e8, 0x1e541e281f0204df0ac107f303dc0977,
   0x1bbe1122052018891e991a920aa019c9, 0x11870f5218941d4d0b221a6b146e12db, 0x19f412d4054d11600c390a911bf21b37,
   0x15e8135d0c48062210f10a4f1173190f, 0x02f519d41af90cf70ffe1e310e0d09eb, 0x154709691f170ce9020e17fa072f1bd0,
   0x1a2b17660da017d204a31f25122d0982, 0x155e1e1f0273010504ea1abe080c0372, 0x006d12be089b07bf102d0e3202c708cd,
   0x01f111f3143e1bde10421e8116a90f06, 0x14be0d991c0107d70fd71fd01476063f, 0x0f840cb315ae1a3c085407371ab807ed,
   0x127208760d820b56129d0b09134a1822, 0x03b81341065d07720c7b01580fab0685, 0x11fc125d1dec13b61e09014917ba0e23,
   0x05f71e781d210cbc0ccd073d14ac0ee6, 0x02631ddc1936012f09c20a6e022f019f, 0x040905661ef11734056f168f1f3719fb,
   0x01bc1e180f97090911ab1a7e05bf0fb3, 0x113c16db009b159616b110560c191cd0, 0x1085021c0180137116000b8711c216e4,
   0x139a16581f3f18f8082a1b6c1b4602b2, 0x0deb01cc14c5148b1cad1ed100221808, 0x1f8e01c316611f581b09085a0a1a0d0c,
   0x16771b4e124c12f51c5517001d771d0f]

/-- ecc/gf13.c:56-1081, part 3 of `gf13_log`: 64 rows of 8 entries; each number is one row, four hexadecimal digits per
entry, in the order of the source. -/
def logPart3 : List Nat :=
  [0x03af19aa0059058c1eb518e400d81134, 0x1a240de41b211949099502810c520ef1, 0x012616c809d210160cc71b030abb04e4,
   0x1c7610cb0b361847031a06941424053a, 0x1aaf1794013a055700370610044e0901, 0x1af408961624051b017b12470d7d1931,
   0x1fc70f310b3100490b3c0b5c19261f07, 0x189e01aa004e01130843157010c010a7, 0x11a2095409440459038a0ebf14551b3e,
   0x00fe1f5105dd0f7009fb06ae13c10daa, 0x1cc71a8e041a0e5c1f210e2e0a8d1e2d, 0x01450a6a1fcc0b051ecd16fc1a7a0b83,
   0x1243156c027d06900dce151006aa16f8, 0x0c590d4e064608e817540dd2162f00e9, 0x164f0fba0dbb13c8184d0d8806ec1e59,
   0x077d08a50f3615c814ef15140bad1f6b, 0x00641d61138f110f1b92070a12ea09ba, 0x0e0611bb0c0e0b6f0bf2064a1a731acc,
   0x0ce0171b0fcc1da80e1d180207e2097c, 0x130c0469192b00e31cf508ec13361fad, 0x1be9052a1bb31ceb067508bd04b5067d,
   0x18b00c8a196a09b00ea70c5d17a91312, 0x0a460f1b10e619601c7c087c1b2c03e1, 0x048504f81f0c0f111b9a0d5212b30084,
   0x0013142f03cd1aea0c0601671db21bf9, 0x1a6416880a7e003f1a4716330eb80160, 0x1ebd1b821d89141a1e89081a06c907f8,
   0x09280e8a0b4118da197c00ed1ad3035c, 0x0bdf182d169703801713140903920cab, 0x0ef81e6a147d0b7909dd175804d1046f,
   0x111905c604320db110d112781c2b0ac6, 0x0c9d1b740b610d4410990dd60e4e1502, 0x18c8011d1ffa1c181a1c032c05e815f1,
   0x0334103b1d2b1a061a150dbf1eae1b8b, 0x173f194001e102e514381eeb0bcf188e, 0x138903c70053093e119013cc1ff4186a,
   0x07ae044518360297100e02dd09141df6, 0x0f4d0964155014600561165311ee133c, 0x094f156719a5178f142a18281d5c0525,
   0x14e105cf0118044006670fbe1a560e40, 0x059614e6187017e310b81a4e13e70a98, 0x11e1181b137c1c0b186306f005331fa6,
   0x144816ef164208db16170f24030d1127, 0x132906fd18a3195304251e5d0bf9034f, 0x1d3a05d40d671724060802d515b81cdb,
   0x099c071e1fd700c71c96185110721fb3, 0x075d1a8500b10a020540135010201bc3, 0x1d6a1b5f01af158915a10d8c0c6e0192,
   0x0af91a5b11960f7a0dc6060006e00206, 0x1efb1d1a016f07cd199e0f3a0b2a10df, 0x1103141113000fa108700216179d19ce,
   0x04630e8410c50a640e7e15cc03c106f7, 0x19b30e45023f1c4b1f63018a120f08c5, 0x01fa0bb80e7202a813f407810e661cfb,
   0x178314000f410f8d03200b0f1fe80aa5, 0x0343128610ac16d1071208a900a50d17, 0x187d066c13d219ea0412163a121b0c40,
   0x190312560c2d0618095d0bb1088f0c83, 0x18ec007b166b02bd104a0ad405b31a97, 0x063315d2084817f01dd01f6f06511145,
   0x152c0fc305771c391f4918130ec712cc, 0x02881f970fde19bf1d9914f30f6108f2, 0x024b11b213a306b5069a12a305a31e9e,
   0x198d083215750fed1e411518149614cf]

/-- ecc/gf13.c:56-1081, part 4 of `gf13_log`: 64 rows of 8 entries; each number is one row, four hexadecimal digits per
entry, in the order of the source. -/
def logPart4 : List Nat :=
  [0x000b1875183c040101e80af003a418be, 0x1d331525123c0bd815401393191b0934, 0x05f11f881e4e15580b4d0a5b17491d52,
   0x177d0245094907570a4011131fc11649, 0x18d217e81adf136914a31fdf091d1c8c, 0x10801672126d025e02f0006804c61bb9,
   0x09230c9813070480014007781c711899, 0x062e1988045e033e13241d65138414dc, 0x1c23059b029d0a121ca41d9017780629,
   0x15820fe615c10d3d07b812ee06d519e0, 0x049f10290c350ffa0d031e951dc50f57, 0x1ca91c5111a715fc1e0509be0fd31299,
   0x175014eb09f71ec90177083f09910316, 0x09d910951a4319780ea31b960bee1cf1, 0x1c92159d185f0421055d06631a11118c,
   0x1d951e3d09591dcc13f0070e199a0e7a, 0x0e9f13ec07b41e0102ec1320153c0a3c, 0x030605ac0a8606c2116c0c12116809a6,
   0x13b014850ed017cc1d4417da1dbe12e0, 0x02a219b9145a00c109aa0b73051508e2, 0x03d90a9d07670ede1224106902581972,
   0x080902c4072c122a11700e0a146b1bef, 0x14a9022c0fa817b71ab5134716a61473, 0x0a171d741b43001f0c1611bf1f3405bc,
   0x192310bd044b0d7a0ab8142100d50c4f, 0x06e90baa06a7162c0a8a1a77145213be, 0x1b2912b004b217a607df133312e71a70,
   0x1c280e4b038f04ce06c61ad01daf0eb5, 0x1d591a53091111eb0bcc1ff105e51eab, 0x101d0c6b15b5106f030a0bf613e40530,
   0x1fe500a2120c0e63179a03be06dd0b27, 0x05a014930ec40f5e05b0064e1218088c, 0x1c6e1381091a04c317461fbe03a11918,
   0x1a0e1997098e0beb1dc20fd0177506d2, 0x16a31f31025514681dbb051215391165, 0x06da121505e213e112e41dac00d2144f,
   0x05841c10039b03f6153600cf039e1772, 0x172f18f31bd9076d1d480ce403f904bb, 0x1ae5037b110a1ce60454068b05870552,
   0x19e51c340f751c4617de171f1c130292, 0x0d7511e61dfc0ed90a0d1ec403fc1364, 0x188719c704dd09750ed407e604be03f1,
   0x0cf509e90620190d115e1b351d4b12d9, 0x07bd08cb0103037017d009800ce71bce, 0x0b5418201a3a07eb07d5063d1bdc0f04,
   0x012d019d0cba0ee413b40e2107700683, 0x136f16e215941cce09070fb1173219f9, 0x12f31d0d1f560d0a1489180618f602b0,
   0x18450538101404e219470eef058a1132, 0x011110a500471f050519192f055508ff, 0x0b030b810e5a1e2b0f6e0da804571b3c,
   0x15c61f6913c61e5708e600e7068e16f6, 0x00e11fab1da6097a0b6d1aca110d09b8, 0x0f0f0082195e03df09ae13101ce9067b,
   0x18d8035a141807f6003d015e1ae81bf7, 0x0d4215000daf0ac40b77046d037e0ca9, 0x093c186802e3188c1a041b891c1615ef,
   0x043e0e3e178d0523145e133a02951df4, 0x1951034d08d911251c091fa417e10a96, 0x158701900a001bc100c51fb117221cd9,
   0x0a6206f50f9f19cc07cb10dd0f780204, 0x16cf0d150f8b0aa302a61cf91c4908c3, 0x17ee114302bb1a9506160c8119e80c3e,
   0x0feb14cd06b31e9c19bd08f01c3712ca]

/-- ecc/gf13.c:56-1081, part 5 of `gf13_log`: 64 rows of 8 entries; each number is one row, four hexadecimal digits per
entry, in the order of the source. -/
def logPart5 : List Nat :=
  [0x0755164715561d500bd6093203ff18bc, 0x033c14da047e1897025c1bb713671c8a, 0x15fa12970ff80f550d3b19de0a100627,
   0x1dca0e78041f118a19761cef1ec70314, 0x00bf08e017ca12de06c009a41dff0a3a, 0x001d05ba17b5147112281bed0edc1970,
   0x04cc0eb317a41a6e162a13bc0d780c4d, 0x0f5c088a0e610b25106d052e11e91ea9, 0x13df144d146611630be906d004c11916,
   0x1c4402901ce40550076b04b903f41770, 0x036e1bcc190b12d7097303ef0ed71362, 0x0d0802ae1ccc19f70ee2068107e90f02,
   0x1e5516f41e291b3a1f0308fd04e01130, 0x0ac20ca707f41bf503dd0679097809b6, 0x1bbf1cd711230a9405211df2188a15ed,
   0x1e9a12c81a930c3c0aa108c119ca0202, 0x118803120f53062518951c881d4e18ba, 0x0b231ea71a6c0c4b146f196e12dc0a38,
   0x19f50f0012d51360054e176e11611914, 0x0c3a02000a9215eb1bf309b41b38112e, 0x15e9112c135e19120c490a36062318b8,
   0x10f21a9e0a501176117418b4191018b6, 0x02f6048f19d50a521afa12630cf81178, 0x0fff11d21e3210f40e0e0c8e09ec1aa0,
   0x1548161c096a0cfa1f1807ff0cea117a, 0x020f1ee417fb1afc073017ad1bd11265, 0x1a2c1150176719d70da1050b17d30a54,
   0x04a40bbe1f2602f8122e131609830491, 0x155f0f291e2009ee02740aae01061aa2, 0x04eb1ba61abf0e10080d0eab03730c90,
   0x006e0c2012bf1e34089c120207c010f6, 0x102e01d40e33100102c80c6108ce11d4, 0x01f218a811f40cec143f15df1bdf117c,
   0x104316101e821f1a16aa10ea0f070801, 0x14bf1de60d9a096c1c02115707d80cfc, 0x0fd80e6c1fd1154a147719640640161e,
   0x0f8519580cb41bd315af07261a3d1267, 0x08551051073807321ab90a4a07ee17af, 0x12730815087717fd0d830e290b571afe,
   0x129e0acf0b0a0211134b0f1f18231ee6, 0x03b9132e134217d5065e1e9007730a56, 0x0c7c1f9f01590da30fac1b300686050d,
   0x11fd0506125e17691ded03ea13b719d9, 0x1e0a1d01014a1a2e17bb03e50e241152, 0x05f807021e7909851d220d310cbd0493,
   0x0cce1f7c073e123014ad1c800ee71318, 0x0264105d1ddd1f28193717c0013002fa, 0x09c30b9e0a6f04a60230088001a00bc0,
   0x040a0bfe056701081ef214b517351aa4, 0x05700d60169002761f381f1019fc0ab0, 0x01bd1e721e191e220f981a33090a09f0,
   0x11ac13fa1a7f156105c00f150fb40f2b, 0x113d035416dc0375009c022615970c92, 0x16b20adb1057080f0c1a04891cd10ead,
   0x10860ae1021d1ac10181014f13720e12, 0x16010d220b8804ed11c304fc16e51ba8, 0x139b042a165907c21f40082118f910f8,
   0x082b1b581b6d089e1b4712b702b31204, 0x0dec0b9701cd12c114c61d06148c1e36, 0x1cae07871ed200700023008818090c22,
   0x1f8f1e6201c408d0166200921f5911d6, 0x1b0a0a23085b02ca0a1b1b9e0d0d0c63, 0x167816b81b4f0e35124d1e0f12f61003,
   0x1c560df3170110301d780d561d1001d6]

/-- ecc/gf13.c:56-1081, part 6 of `gf13_log`: 64 rows of 8 entries; each number is one row, four hexadecimal digits per
entry, in the order of the source. -/
def logPart6 : List Nat :=
  [0x03b00d6c19ab1be1005a0749058d117e, 0x1eb61cc018e5144100d903d1113515e1, 0x1a2503670de511f61b220498194a0cee,
   0x09960f47028201f40c531aee0ef218aa, 0x0127172916c90f0909d3107a10170803, 0x0cc8084f1b0416ac0abc001704e510ec,
   0x1c770e1810cc1e840b370cc218481f1c, 0x031b086b0695104514251433053b1612, 0x1ab01d3f179507da013b0b4805580cfe,
   0x00380f6906111c04044f1db609021159, 0x1af5054908970d9c16250d36051c096e, 0x017c0f93124814c10d7e1bfd19321de8,
   0x1fc805d90f3206420b321b1d004a1620, 0x0b3d0a7a0b5d147919270c0a1f081966, 0x189f137801ab1fd3004f1d270114154c,
   0x08440c2915710fda10c1016b10a80e6e, 0x11a315bd09551a3f09451238045a1269, 0x038b06a30ec015b114560a821b3f0728,
   0x00ff04d91f520cb605de098a0f711bd5, 0x09fc178906af0f8713c200430dab195a, 0x1cc81ce01a8f07f0041b047a0e5d17b1,
   0x1f2217f70e2f1abb0a8e1a681e2e0a4c, 0x014601550a6b073a1fcd1e7e0b060734, 0x1ece1b6916fd08571a7b168c0b841053,
   0x1244060d156d0b59027e18e106911b00, 0x0dcf150d15110d8506ab0ebc16f90e2b, 0x0c5a08ba0d4f08790647070708e917ff,
   0x175514060dd312751630016400ea0817, 0x165002da0fbb18250dbc032913c91ee8, 0x184e02d20d89134d06ed1a4b1e5a0f21,
   0x077e018708a60b0c0f3705fd15c90213, 0x14f01810151512a00bae16371f6c0ad1, 0x00651fdc1d62077513900aed11100a58,
   0x1b93083c070b066012eb1d8d09bb1e92, 0x0e07106611bc13440c0f131d0b7017d7, 0x0bf31fee064b03bb1a74141e1acd1330,
   0x0ce100cc171c06880fcd1fbb1da9050f, 0x0e1e063a18030fae07e31ec1097d1b32, 0x130d1ac7046a015b192c0eec00e40da5,
   0x1cf610da08ed0c7e13371b861fae1fa1, 0x1bea09a1052b13b91bb4092f1cec19db, 0x067608fa08be1def04b606cd067e03ec,
   0x18b10a330c8b1260196b1c8509b1176b, 0x0ea80aab0c5e11ff17aa07fc13130508, 0x0a4707230f1c0e2610e715dc19611154,
   0x1c7d0d2e087d17bd1b2d1e8d03e203e7, 0x0486022304f9014c1f0d14b20f121a30, 0x1b9b008f0d531e0c12b4081e00851d03,
   0x0014107714300cbf03ce07461aeb0495, 0x0c071b1a01681d241db30b451bfa0d33, 0x1a65047716891e7b0a7f123500400987,
   0x1a480326163405fa0eb918de01610704, 0x1ebe1fb81b830ee91d8a0aea141b131a, 0x1e8a15d9081b14af06ca092c07f91c82,
   0x09290ae70e8b07400b42074318db1232, 0x197d079e00ee0cd01ad40e8e035d1f7e, 0x0be01c9b182e013216980e91038102fc,
   0x171416c1140a193903931ad70cac17c2, 0x0ef912901e6b1ddf147e1f810b7a1f2a, 0x09de0b151759026604d203600470105f,
   0x111a185605c701a2043307a10db20bc2, 0x10d20863127902321c2c19800ac70882, 0x0c9e108c1b750a710b620cd30d4504a8,
   0x109a002a0dd709c50e4f00f115030ba0]

/-- ecc/gf13.c:56-1081, part 7 of `gf13_log`: 64 rows of 8 entries; each number is one row, four hexadecimal digits per
entry, in the order of the source. -/
def logPart7 : List Nat :=
  [0x18c900b6011e17371ffb0e941c191aa6, 0x1a1d0dff032d1ef405e9169b15f214b7, 0x03350b1c103c05691d2c02ff1a07010a,
   0x1a1610b20dc0040c1eaf03841b8c0c00, 0x17400a07194119fe01e21c9e02e60ab2, 0x143906581eec1f3a0bd00be3188f1f12,
   0x138a1bae03c8169200540135093f0278, 0x1191023a13cd05721ff51831186b0d62, 0x07af07620446090c18371ada029809f2,
   0x100f1da102de0f9a091503961df71a35, 0x0f4e135909651e1b155117c514611e24, 0x056216d7165401bf11ef0caf133d1e74,
   0x09501a8a15680fb619a616c417900f2d, 0x142b1b7e182905c21d5d171705260f17, 0x14e216eb05d01a810119193c04411563,
   0x066800770fbf11ae1a57140d0e4113fc, 0x0597102514e7159918711f8417e40c94, 0x10b912ac1a4f009e13e814810a990228,
   0x11e209e5181c16de137d1f2d1c0c0377, 0x1864034906f1113f05340b7d1fa70356, 0x14491bc816f01cd31643129308dc0eaf,
   0x1618114c0f250c1c030e0efc1128048b, 0x132a050206fe105918a41de219540811, 0x04260b931e5e16b40bfa1e6e03500add,
   0x1d3b054505d513740d68036317250e14, 0x060908b602d6018315b904d51cdc0151, 0x099d0a2f071f021f1fd8106200c81ac3,
   0x1c97128c18521088107304731fb40ae3, 0x075e13551a8616e700b20b180a031baa, 0x05410a2b135111c5102109e11bc404fe,
   0x1d6b11c91b600b8a01b00269158a04ef, 0x15a21ed90d8d16030c6f175c01930d24, 0x0afa01b41a5c18fb119707a40f7b10fa,
   0x0dc7170c06011f4206e1043602070823, 0x1efc026d1d1b165b01700bc507ce07c4, 0x199f00ab0f3b139d0b2b0db510e0042c,
   0x1104158e141202b5130118590fa21206, 0x08711dd702171b49179e111d19cf12b9, 0x046404f30e851b6f10c601a50a6508a0,
   0x0e7f128115cd082d03c205ca06f81b5a, 0x19b41d6f0e46148e024019831c4c1e38, 0x1f6414fb018b14c812101c2f08c61d08,
   0x01fb11cd0bb901cf0e73088502a912c3, 0x13f50d1d07820dee0e670aca1cfc0b99, 0x17841b641401180b0f4208660f8e0c24,
   0x032107990b1000251fe910d50aa6008a, 0x03440b8e12871ed410ad023516d20072, 0x0713078e08aa1cb000a6127c0d180789,
   0x187e0c73066d1f5b13d30cd619eb11d8, 0x04131d82163b1664121c0b650c410094, 0x19041760125701c60c2e04ab061908d2,
   0x095e07180bb21f9108900d480c841e64, 0x18ed0197007c0d0f166c108f02be0c65, 0x104b1f760ad50a1d05b40ca11a981ba0,
   0x06340d2815d3085d08490a7417f102cc, 0x1dd107931f701b0c06521b7811460a25, 0x152d15a60fc412f8057800f41c3a1005,
   0x1f4a16811814124f0ec80e5212cd1e11, 0x02891edd1f981b510fdf0ba319c00e37, 0x1d9a08af14f4167a0f62150608f316ba,
   0x024c0d9111b31d1213a4002d06b601d8, 0x069b1b1212a41d7a05a4109d1e9f0d58, 0x198e160708331703157609c80fee1032,
   0x1e421cb515191c5814970dda14d00df5]

/-- ecc/gf13.c:56-1081, part 8 of `gf13_log`: 64 rows of 8 entries; each number is one row, four hexadecimal digits per
entry, in the order of the source. -/
def logPart8 : List Nat :=
  [0x000c119b1876058f183d0e9704021180, 0x01e91c650af1005c03a51ffe18bf074b, 0x1d3407a8152619ad123d1aa90bd91be3,
   0x154113d8139403b2191c1c1c09350d6e, 0x05f20f7f1f8911371e4f00b9155915e3, 0x0b4e057e0a5c00db174a18cc1d5303d3,
   0x177e10fe024618e7094a173a07581443, 0x0a410cdb11141eb81fc20121164a1cc2, 0x18d30afe17e9194c1ae0169e136a0cf0,
   0x14a413ab1fe01b24091e05ec1c8d049a, 0x108101b816730de7126e14ba025f11f8, 0x02f119f000691a2704c715f51bba0369,
   0x09241a600c990ef413080e02048118ac, 0x014100fa07790c551c721a20189a1af0, 0x062f18ff19890284045f1ef7033f01f6,
   0x132511dd1d6609981385033014dd0f49, 0x1c2406e5059c1019029e03020a130805, 0x1ca5157e1d9109d517791d2f062a107c,
   0x1583043a0fe716cb15c2010d0d3e0f0b, 0x07b9188312ef012906d61a0a19e1172b, 0x04a0020b102a04e70c360b1f0ffb10ee,
   0x0d041c401e960abe1dc603380f580019, 0x1caa08271c521b0611a8056c15fd16ae, 0x1e060c7809bf0cca0fd4103f129a0851,
   0x17510dcb14ec184a09f803871eca1f1e, 0x0178003408400b3909921eb203170cc4, 0x09da1710109610ce1a440c0319791e86,
   0x0ea406721b971c790bef1b8f1cf20e1a, 0x1c930605159e053d186010b504221614, 0x055e100b066414271a121a19118d1435,
   0x1d961f461e3e0697095a040f1dcd1047, 0x13f11f60070f031d199b0dc30e7b086d, 0x0ea0017413ed055a07b51ca11e020d00,
   0x02ed14a01321013d153d01e50a3d0b4a, 0x03070bc905ad17970a870ab506c307dc, 0x116d12210c131ab2116902e909a71d41,
   0x13b107d2148609040ed10a0a17cd115b, 0x1d45153317db04511dbf174312e11db8, 0x02a307c819ba0613145b1a0100c21c06,
   0x09ab0b6a0b74003a0516194408e30f6b, 0x03da1f000a9e051e07680be60edf0970, 0x122506bd106a162702590bd319730d38,
   0x080a027102c50899072d1f15122b0d9e, 0x11710c460e0b1af7146c18921bf0054b, 0x14aa1d1f022d19340fa9065b17b81dea,
   0x1ab615ac13480d8016a7143c14741bff, 0x0a18165f1d75124a1b441f3d002014c3, 0x0c17009911c0017e1f351eef05bd0f95,
   0x19240b2f10be004c044c01380d7b1622, 0x0ab909d014220b3400d600570c501b1f, 0x06ea0db90bab0f3406a8027b162d0644,
   0x0a8b04181a781fca1453094213bf05db, 0x1b2a10e412b11f0a04b31bb117a71968, 0x07e00fca1334192912e8138d1a710c0c,
   0x1c2904300e4c0b5f0390169504cf147b, 0x06c71d871ad10b3f1db003cb0eb60a7c, 0x1d5a19a31a5401160912183411ec154e,
   0x0bcd01df1ff2005105e61ff81eac1d29, 0x101e00af0c6c01ad15b60d6510701fd5, 0x030b16400bf718a113e5186e0531137a,
   0x1fe60f3f00a310aa120d023d0e640e70, 0x179b12fe03bf10c306de11940b28016d, 0x05a113a1149415730ec505750f5f0fdc,
   0x05b11669064f0846121913d0088d0c2b]

/-- ecc/gf13.c:56-1081, part 9 of `gf13_log`: 64 rows of 8 entries; each number is one row, four hexadecimal digits per
entry, in the order of the source. -/
def logPart9 : List Nat :=
  [0x1c6f13051382045c091b1add04c4126b, 0x17471e4c1fbf094703a2183a1919123a, 0x1a0f185d19980957098f09f50bec1a41,
   0x1dc30c330fd111a51776029b06d315bf, 0x16a40fa61f321b41025607651469072a, 0x1dbc0ece05131458153a07b211660a84,
   0x06db120a12160ec205e3090f13e215b3, 0x12e504b01dad038d00d30449145006a5, 0x058511081c110f73039c039903f71bd7,
   0x1537025300d005e0039f09181773098c, 0x1730159218f41f541bda1a38076e0cb8, 0x1d49061e0ce5010103fa1dfa04bc04db,
   0x1ae61416037c0dad110b1da41ce7195c, 0x04550e58068c13c40588101205530045, 0x19e602b91c3506b10f760f9d1c470f89,
   0x17df08d7172009fe1c1402e10293178b, 0x0d7617a211e70e5f1dfd17c80eda17b3, 0x0a0e0ff61ec5041d03fd15541365047c,
   0x1888112119c81a9104de1e27097607f2, 0x0ed5190907e71cca04bf146403f21ce2, 0x0cf619d309ea1e300621135c190e0a4e,
   0x115f12d31b360a901d4c0f5112da1a6a, 0x07be12bd08cc0e3101041e1e03711abd, 0x17d1176509811f240ce809681bcf17f9,
   0x0b55087518210b081a3b0cb207ec0736, 0x07d60d98063e1fcf1bdd11f20f051e80, 0x012e1ddb019e0a6d0cbb1e770ee5073c,
   0x13b5125c0e2201480771134006840157, 0x1370021b16e30b86159516da1ccf1055, 0x09081e170fb21a7d1733056519fa168e,
   0x12f41b4d1d0e16ff1f5701c20d0b0859, 0x148a01cb18071ed018f7165702b11b6b, 0x184610ca05390693101516c704e31b02,
   0x19480de30ef00280058b19a9113318e3, 0x011201a910a6156f00480f301f060b5b, 0x051a089519301246055617930900060f,
   0x0b040a690b8216fb0e5b1a8d1e2c0e2d, 0x0f6f1f500da906ad045809531b3d0ebe, 0x15c708a41f6a151313c70fb91e580d87,
   0x08e70d4d00e80dd1068f156b16f7150f, 0x00e204681fac08eb1da7171a097b1801, 0x0b6e11ba1acb0649110e1d6009b90709,
   0x0f1004f700830d51195f0f1a03e0087b, 0x09af0c8913110c5c1cea0529067c08bc, 0x18d90e89035b00ec14191b8107f70819,
   0x003e1687015f16321ae9142e1bf80166, 0x0d431b7315010dd50db005c50ac51277, 0x0b781e69046e1757037f182c0caa1408,
   0x093d03c6186913cb02e4193f188d1eea, 0x1a05103a1b8a0dbe1c17011c15f0032b, 0x043f05ce0e3f0fbd178e156605241827,
   0x145f0963133b1652029604441df502dc, 0x195206fc034e1e5c08da16ee11260f23, 0x1c0a181a1fa506ef17e214e50a971a4d,
   0x15881b5e01910d8b0a011a841bc2134f, 0x00c6071d1fb21850172305d31cda02d4, 0x0a630e8306f615cb0fa0141019cd0215,
   0x07cc1d1910de0f390f791a5a020505ff, 0x16d012850d1608a80f8c13ff0aa40b0e, 0x02a70bb71cfa07801c4a0e4408c40189,
   0x17ef15d111441f6e02bc007a1a960ad3, 0x061712550c820bb019e9066b0c3f1639, 0x0fec083114ce151706b411b11e9d12a2,
   0x19be1f9608f114f21c380fc212cb1812]

/-- ecc/gf13.c:56-1081, part 10 of `gf13_log`: 64 rows of 8 entries; each number is one row, four hexadecimal digits per
entry, in the order of the source. -/
def logPart10 : List Nat :=
  [0x075602441648111215571f871d510a5a, 0x0bd71524093313920400187418bd0aef, 0x033d198714db1d64047f0c9718980777,
   0x025d16711bb80067136817e71c8b1fde, 0x15fb1c50129809bd0ff910280f561e94, 0x0d3c0fe519df12ed0a11059a06281d8f,
   0x1dcb1e3c0e79070d0420159c118b0662, 0x197710941cf01b951ec814ea0315083e, 0x00c019b808e10b7217cb148412df17d9,
   0x06c105ab09a50c111e0013eb0a3b131f, 0x001e1d7305bb11be17b6022b14721346, 0x122902c31bee0e090edd0a9c19711068,
   0x04cd0e4a0eb41acf17a512af1a6f1332, 0x162b0ba913bd1a760d7910bc0c4e1420, 0x0f5d1492088b064d0e6200a10b2603bd,
   0x106e0c6a052f0bf511ea1a521eaa1ff0, 0x13e01214144e1dab14671f3011640511, 0x0bea199606d10fcf04c2138019171fbd,
   0x1c451c330291171e1ce5037a0551068a, 0x076c18f204ba0ce303f51c0f177100ce, 0x036f08ca1bcd097f190c09e812d81b34,
   0x097419c603f007e50ed811e513631ec3, 0x0d091d0c02af18051ccd16e119f80fb0, 0x0ee3019c06820e2007ea181f0f03063c,
   0x1e561f6816f500e61e2a0b801b3b0da7, 0x1f0410a408fe192e04e1053711310eee, 0x0ac314ff0ca8046c07f503591bf6015d,
   0x03de0081067a130f09791faa09b71ac9, 0x1bc0018f1cd81fb01124034c0a951fa3, 0x05220e3d1df31339188b186715ee1b88,
   0x1e9b14cc12c908ef1a9411420c3d0c80, 0x0aa20d1408c21cf819cb06f4020310dc, 0x11890e7703131cee0f541296062619dd,
   0x189614d91c891bb61d4f164618bb0931, 0x0b2408891ea8052d1a6d0eb20c4c13bb, 0x147005b9196f1bec12dd08df0a3909a3,
   0x19f602ad0f01068012d61bcb136103ee, 0x054f028f176f04b81162144c191506cf, 0x0c3b12c7020108c00a931cd615ec1df1,
   0x1bf40ca609b506781b3916f3112f08fc, 0x15ea01ff112d09b3135f0eff1913176d, 0x0c4a1ea60a37196d0624031118b91c87,
   0x10f311d11a9f0c8d0a51048e11771262, 0x11751a9d18b518b31911112b18b70a35, 0x02f70bbd0490131519d6114f0a53050a,
   0x1afb1ee3126417ac0cf9161b117907fe, 0x100001d311d30c601e330c1f10f51201, 0x0e0f1ba50c8f0eaa09ed0f281aa10aad,
   0x15490e6b161d1963096b1de50cfb1156, 0x1f19160f080010e90ceb18a7117b15de, 0x02100ace1ee50f1e17fc08141afd0e28,
   0x0731105017ae0a491bd2195712660725, 0x1a2d1d00115103e41768050519d803e9, 0x0da21f9e050c1b2f17d4132d0a551e8f,
   0x04a50b9d0bbf087f1f27105c02f917bf, 0x122f1f7b13171c7f0984070104920d30, 0x156013f90f2a0f141e211e7109ef1a32,
   0x02750d5f0aaf1f0f01070bfd1aa314b4, 0x04ec0d211ba704fb1ac00ae00e11014e, 0x080e0ada0eac0488037403530c910225,
   0x006f07860c21008712c00b961e351d05, 0x089d1b57120312b607c1042910f70820, 0x102f0df201d50d550e3416b710021e0e,
   0x02c90a220c621b9d08cf1e6111d50091]

/-- ecc/gf13.c:56-1081, part 11 of `gf13_log`: 64 rows of 8 entries; each number is one row, four hexadecimal digits per
entry, in the order of the source. -/
def logPart11 : List Nat :=
  [0x01f30f4618a91aed11f503660ced0497, 0x14401cbf15e003d01be00d6b117d0748, 0x1044086a161114321e830e171f1b0cc1,
   0x16ab084e10eb00160f08172808021079, 0x14c00f921de71bfc0d9b0548096d0d35, 0x1c030f6811581db507d91d3e0cfd0b47,
   0x0fd90c280e6d016a1fd21377154b1d26, 0x14780a7919650c09064105d8161f1b1c, 0x0f861788195900420cb504d81bd40989,
   0x15b006a207270a811a3e15bc12681237, 0x08561b681052168b0739015407331e7d, 0x1aba17f60a4b1a6707ef1cdf17b00479,
   0x1274140508160163087808b917fe0706, 0x0d84150c0e2a0ebb0b58060c1aff18e0, 0x129f180f0ad016360b0b0186021205fc,
   0x134c02d10f201a4a182402d91ee70328, 0x03ba1fed132f141d1343106517d6131c, 0x065f083b1e911d8c07741fdb0a570aec,
   0x0c7d10d91fa01b85015a1ac60da40eeb, 0x0fad06391b311ec0068700cb050e1fba, 0x11fe0aaa050707fb125f0a32176a1c84,
   0x1dee08f903eb06cc13b809a019da092e, 0x1e0b008e1d02081d014b02221a2f14b1, 0x17bc0d2d03e61e8c0e250722115315db,
   0x05f90325070318dd1e7a047609861234, 0x1d231b190d320b440cbe107604940745, 0x0ccf079d1f7d0e8d073f0ae612310742,
   0x14ae15d81c81092b0ee81fb713190ae9, 0x02650b14105e035f1dde128f1f291f80, 0x193816c017c11ad601311c9a02fb0e90,
   0x09c400290b9f00f00a70108b04a70cd2, 0x023108620881197f01a118550bc107a0, 0x040b10b10bff038305680b1b010902fe,
   0x1ef30dfe14b6169a173600b51aa50e93, 0x057102390d61183016911bad02770134, 0x1f3906571f110be219fd0a060ab11c9d,
   0x01be16d61e730cae1e1a13581e2317c4, 0x0f991da01a340395090b076109f11ad9, 0x11ad007613fb140c1a8016ea1562193b,
   0x05c11b7d0f1617160fb51a890f2c16c3, 0x113e034803550b7c16dd09e403761f2c, 0x009d12ab02271480159810240c931f83,
   0x16b30b920adc1e6d1058050108101de1, 0x0c1b114b048a0efb1cd21bc70eae1292, 0x1087128b0ae20472021e0a2e1ac21061,
   0x018208b5015004d4137305440e130362, 0x16021ed80d23175b0b8911c804ee0268, 0x11c40a2a04fd09e016e613541ba90b17,
   0x139c00aa042b0db4165a026c07c30bc4, 0x1f41170b0822043518fa01b310f907a3, 0x082c12801b5905c91b6e04f2089f01a4,
   0x1b481dd612b8111c02b4158d12051858, 0x0ded0d1c0b980ac901ce11cc12c20884, 0x14c714fa1d071c2e148d1d6e1e371982,
   0x1caf078d0788127b1ed30b8d00710234, 0x00240798008910d4180a1b630c230865, 0x1f9007171e630d4701c5175f08d104aa,
   0x16631d8100930b641f5a0c7211d70cd5, 0x1b0b07920a241b77085c0d2702cb0a73, 0x0a1c1f751b9f0ca00d0e01960c64108e,
   0x167908ae16b915051b501edc0e360ba2, 0x124e16801e100e5112f715a5100400f3, 0x1c571cb40df40dd917021606103109c7,
   0x1d791b110d57109c1d110d9001d7002c]

/-- ecc/gf13.c:56-1081, part 12 of `gf13_log`: 64 rows of 8 entries; each number is one row, four hexadecimal digits per
entry, in the order of the source. -/
def logPart12 : List Nat :=
  [0x03b113d70d6d1c1b19ac07a71be21aa8, 0x005b1c64074a1ffd058e119a117f0e96, 0x1eb70cda1cc1012018e610fd14421739,
   0x00da057d03d218cb11360f7e15e200b8, 0x1a2619ef036815f40de601b711f714b9, 0x1b2313aa049905eb194b0afd0cef169d,
   0x099711dc0f48032f028318fe01f51ef6, 0x0c5400f91aef1a1f0ef31a5f18ab0e01, 0x01281882172a1a0916ca04390f0a010c,
   0x09d4157d107b1d2e101806e408040301, 0x0cc90c770850103e1b05082616ad056b, 0x0abd1c3f0018033704e6020a10ed0b1e,
   0x1c7806710e191b8e10cd170f1e850c02, 0x0b3800330cc31eb118490dca1f1d0386, 0x031c1f5f086c0dc206961f451046040e,
   0x1426100a14341a18053c0604161310b4, 0x1ab112201d4002e817960bc807db0ab4, 0x013c149f0b4901e4055901730cff1ca0,
   0x00390b690f6a1943061207c71c051a00, 0x045015321db71742090307d1115a0a09, 0x1af60c45054a1891089802700d9d1f14,
   0x162606bc0d370bd2051d1eff096f0be5, 0x017d00980f941eee1249165e14c21f3c, 0x0d7f15ab1bfe143b19331d1e1de9065a,
   0x1fc9041705da09410f330db80643027a, 0x0b3309cf1b1e0056004b0b2e16210137, 0x0b3e1d860a7b03ca0b5e042f147a1694,
   0x19280fc90c0b138c1f0910e319671bb0, 0x18a0163f1379186d01ac00ae1fd40d64, 0x005001de1d281ff7011519a2154d1833,
   0x084516680c2a13cf157213a00fdb0574, 0x10c212fd016c119310a90f3e0e6f023c, 0x11a40c3215be029a0956185c1a4009f4,
   0x09461e4b12391839045b1304126a1adc, 0x038c04af06a404480ec1120915b2090e, 0x14570ecd0a8307b11b400fa507290764,
   0x0100061d04da1df91f5315910cb71a37, 0x05df0252098b09170f7211071bd60398, 0x09fd08d6178a02e006b002b80f880f9c,
   0x13c30e57004410110dac1415195b1da3, 0x1cc919081ce114631a90112007f11e26, 0x041c0ff5047b15530e5e17a117b217c7,
   0x1f23176417f809670e3012bc1abc1e1d, 0x0a8f12d21a690f501e2f19d20a4d135b, 0x0147125b0156133f0a6c1dda073b1e76,
   0x1fce0d971e7f11f10b07087407350cb1, 0x1ecf01ca1b6a165616fe1b4c085801c1, 0x1a7c1e16168d05640b85021a105416d9,
   0x12450894060e1792156e01a80b5a0f2f, 0x027f0de218e219a8069210c91b0116c6, 0x0dd00d4c150e156a151208a30d860fb8,
   0x06ac1f4f0ebd095216fa0a680e2c1a8c, 0x0c5b0c8808bb05280d5004f6087a0f19, 0x064811b907081d5f08ea046718001719,
   0x17561e681407182b0dd41b72127605c4, 0x163116860165142d00eb0e8808181b80, 0x1651096202db04430fbc05cd18261565,
   0x0dbd1039032a011b13ca03c51ee9193e, 0x184f071c02d305d20d8a1b5d134e1a83, 0x06ee18191a4c14e41e5b06fb0f2216ed,
   0x077f0bb601880e4308a712840b0d13fe, 0x0f381d1805fe1a5915ca0e820214140f, 0x14f11f9518110fc11516083012a111b0,
   0x0baf12541638066a1f6d15d00ad20079]

/-- ecc/gf13.c:56-1081, part 13 of `gf13_log`: 64 rows of 8 entries; each number is one row, four hexadecimal digits per
entry, in the order of the source. -/
def logPart13 : List Nat :=
  [0x006616701fdd17e61d63198607760c96, 0x139115230aee1873111102430a591f86, 0x1b941093083d14e9070c1e3b0661159b,
   0x12ec0fe41d8e059909bc1c4f1e931027, 0x0e0802c210670a9b11bd1d721345022a, 0x0c1005aa131e13ea0b7119b717d81483,
   0x0bf40c691fef1a51064c149103bc00a0, 0x1a750ba8141f10bb1ace0e49133112ae, 0x0ce218f100cd1c0e171d1c3206890379,
   0x0fce19951fbc137f1daa121305101f2f, 0x0e1f019b063b181e18041d0b0faf16e0, 0x07e419c51ec211e4097e08c91b3309e7,
   0x130e00801ac81fa9046b14fe015c0358, 0x192d10a30eed053600e51f670da60b7f, 0x1cf70d1310db06f308ee14cb0c7f1141,
   0x13380e3c1b8718661faf018e1fa2034b, 0x1beb05b809a208de052c088813ba0eb1, 0x1bb514d8093016451ced0e7619dc1295,
   0x06770ca508fb16f208bf12c61df01cd5, 0x04b7028e06ce144b067f02ac03ed1bca, 0x18b21a9c0a34112a0c8c11d01261048d,
   0x196c1ea51c86031009b201fe176c0efe, 0x0ea91ba40aac0f270c5f01d212000c1e, 0x17ab1ee207fd161a13140bbc0509114e,
   0x0a48104f072419560f1d0acd0e270813, 0x10e8160e15dd18a619620e6a11551de4, 0x1c7e1f7a0d2f0700087e0b9c17be105b,
   0x1b2e1f9d1e8e132c03e31cff03e80504, 0x04870ad90224035204fa0d20014d0adf, 0x1f0e0d5e14b30bfc0f1313f81a311e70,
   0x1b9c0a2100901e600d540df11e0d16b6, 0x12b51b56081f0428008607851d040b95, 0x0015084d10781727143108690cc00e16,
   0x03cf1cbe07470d6a1aec0f4504960365, 0x0c080a781b1b05d701690c271d251376, 0x1db40f670b461d3d1bfb0f910d340547,
   0x1a6617f504781cde168a1b671e7c0153, 0x0a8006a1123615bb00411787098804d7, 0x1a4902d0032702d81635180e05fb0185,
   0x0eba150b18df060b01621404070508b8, 0x1ebf06381fb900ca1b8410d80eea1ac5, 0x1d8b083a0aeb1fda141c1fec131b1064,
   0x1e8b0d2c15da0721081c008d14b00221, 0x06cb08f8092d099f07fa0aa91c830a31, 0x092a15d70ae81fb60e8c079c07410ae5,
   0x0b431b180744107518dc032412330475, 0x197e0861079f185400ef00280cd1108a, 0x1ad516bf0e8f1c99035e0b131f7f128e,
   0x0be106561c9c0a05182f023801331bac, 0x16990dfd0e9200b4038210b002fd0b1a, 0x17151b7c16c21a88140b0075193a16e9,
   0x03941d9f1ad807600cad16d517c31357, 0x0efa114a12911bc61e6c0b911de00500, 0x147f12aa1f8210230b7b03471f2b09e3,
   0x09df0a290b161353175a1ed7026711c7, 0x04d308b4036105430471128a10600a2d, 0x111b1dd51857158c05c8127f01a304f1,
   0x0434170a07a201b20db300a90bc3026b, 0x10d3079708641b62127a078c02330b8c, 0x1c2d14f919811d6d0ac80d1b088311cb,
   0x0c9f1f74108d01951b7607910a720d26, 0x0b631d800cd40c710d46071604a9175e, 0x109b1b10002b0d8f0dd81cb309c61605,
   0x0e50167f00f215a4150408ad0ba11edb]

/-- ecc/gf13.c:56-1081, part 14 of `gf13_log`: 64 rows of 8 entries; each number is one row, four hexadecimal digits per
entry, in the order of the source. -/
def logPart14 : List Nat :=
  [0x18ca057c00b70f7d011f0cd9173810fc, 0x1ffc1c630e9511991c1a13d61aa707a6, 0x1a1e00f80e001a5e032e11db1ef518fd,
   0x05ea13a9169c0afc15f319ee14b801b6, 0x03361c3e0b1d0209103d0c76056a0825, 0x1d2d157c030006e31a081881010b0438,
   0x1a17100910b306030dc11f5e040d1f44, 0x1eb0003203850dc91b8d06700c01170e, 0x174115310a0807d019420b6819ff07c6,
   0x01e3149e1c9f017202e7121f0ab30bc7, 0x143a15aa06591d1d1eed00971f3b165d, 0x0bd106bb0be41efe18900c441f13026f,
   0x138b0fc81baf10e203c91d851693042e, 0x005509ce01360b2d0940041602790db7, 0x119212fc023b0f3d13ce16670573139f,
   0x1ff601dd183219a1186c163e0d6300ad, 0x07b00ecc07630fa4044704ae090d1208, 0x18381e4a1adb130302990c3109f3185b,
   0x10100e561da2141402df08d50f9b02b7, 0x09160251039711061df8061c1a361590, 0x0f4f12d1135a19d1096617631e1c12bb,
   0x15520ff417c617a0146219071e25111f, 0x05631e1516d80219165501c901c01b4b, 0x11f00d960cb00873133e125a1e751dd9,
   0x09511f4e1a8b0a6715690d4b0fb708a2, 0x19a70de116c510c8179108930f2e01a7, 0x142c16851b7f0e87182a1e6705c31b71,
   0x1d5e11b81718046605270c870f1804f5, 0x14e3181816ec06fa05d1071b1a821b5c, 0x011a1038193d03c404420961156405cc,
   0x06691253007815cf0fc01f9411af082f, 0x1a581d17140e0e810e420bb513fd1283, 0x05980fe310261c4e14e81092159a1e3a,
   0x187215221f85024217e5166f0c951985, 0x10ba0ba712ad0e481a500c68009f1490, 0x13e905a9148219b60a9a02c102291d71,
   0x11e319c409e608c8181d019a16df1d0a, 0x137e19941f2e12121c0d18f003781c31, 0x18650e3b034a018d06f20d12114014ca,
   0x053510a20b7e1f661fa8007f035714fd, 0x144a028d1bc902ab16f10ca41cd412c5, 0x164414d712940e7508dd05b70eb00887,
   0x16191ee1114d0bbb0f261ba30c1d01d1, 0x030f1ea40efd01fd11291a9b048c11cf, 0x132b1f9c05031cfe06ff1f79105a0b9b,
   0x18a5160d1de30e691955104e08120acc, 0x04271b550b9407841e5f0a2016b50df0, 0x0bfb0d5d1e6f13f703510ad80ade0d1f,
   0x1d3c0f6605460f9005d60a7713750c26, 0x0d691cbd03640f441726084c0e150868, 0x060a150a08b7140302d702cf0184180d,
   0x15ba06a004d617861cdd17f401521b66, 0x099e08f70a300aa807200d2b0220008c, 0x1fd9083910631feb00c906371ac410d7,
   0x1c9816be128d0b121853086010890027, 0x10741b17047403231fb515d60ae4079b, 0x075f1d9e135616d41a871b7b16e80074,
   0x00b30dfc0b1910af0a0406551bab0237, 0x054208b30a2c128913520a2811c61ed6, 0x102212a909e203461bc5114904ff0b90,
   0x1d6c14f811ca0d1a1b6107960b8b078b, 0x01b11709026a00a8158b1dd404f0127e, 0x15a3167e1eda08ac0d8e1b0f16041cb2,
   0x0c701d7f175d071501941f730d250790]

/-- ecc/gf13.c:56-1081, part 15 of `gf13_log`: 64 rows of 8 entries; each number is one row, four hexadecimal digits per
entry, in the order of the source. -/
def logPart15 : List Nat :=
  [0x0afb13a801b519ed1a5d00f718fc11da, 0x11981c6207a513d50f7c057b10fb0cd8, 0x0dc80031170d066f060210081f431f5d,
   0x06e2157b0437188002081c3d08240c75, 0x1efd06ba026e0c431d1c15a9165c0096, 0x0171149d0bc6121e07cf153007c50b67,
   0x19a001dc00ac163d0f3c12fb139e1666, 0x0b2c09cd0db6041510e10fc7042d1d84, 0x11050250158f061b14130e5502b608d4,
   0x13021e49185a0c300fa30ecb120704ad, 0x08720d951dd8125902181e141b4a01c8, 0x179f0ff3111e190619d012d012ba1762,
   0x046511b704f40c860e8616841b701e66, 0x10c70de001a608920a661f4d08a10d4a, 0x0e801d1612820bb415ce1252082e1f93,
   0x03c3103705cb096006f918171b5b071a, 0x19b505a81d7002c00e470ba6148f0c67, 0x024115211984166e1c4d0fe21e391091,
   0x1f6510a114fc007e018c0e3a14c90d11, 0x121119931c3018ef08c719c31d090199, 0x01fc1ea311ce1a9a0bba1ee001d01ba2,
   0x0e7414d6088605b602aa028c12c40ca3, 0x13f60d5c0d1e0ad707831b540def0a1f, 0x0e68160c0acb104d1cfd1f9b0b9a1f78,
   0x1785069f1b6517f314021509180c02ce, 0x0f431cbc0867084b0f8f0f650c250a76, 0x03221b16079a15d50b1116bd0026085f,
   0x1fea083810d606360aa708f6008b0d2a, 0x034512a80b8f1148128808b21ed50a27, 0x10ae0dfb0236065416d31d9d00731b7a,
   0x07141d7e078f1f7208ab167d1cb11b0e, 0x00a71708127d1dd30d1914f7078a0795, 0x187f157a0c741c3c066e00301f5c1007,
   0x13d41c610cd7057a19ec13a711d900f6, 0x041409cc1d830fc6163c01db166512fa, 0x121d149c0b66152f0c4206b9009515a8,
   0x19050ff2176112cf12580d9401c71e13, 0x0c2f1e4804ac0eca061a024f08d30e54, 0x095f1036071918160bb31d151f921251,
   0x08910ddf0d491f4c0c8511b61e651683, 0x18ee1992019819c2007d10a00d100e39, 0x166d152010900fe102bf05a70c660ba5,
   0x104c160b1f771f9a0ad60d5b0a1e1b53, 0x05b514d50ca2028b1a991ea21ba11edf, 0x063508370d2908f515d41b15085e16bc,
   0x084a1cbb0a750f6417f2069e02cd1508, 0x1dd21707079414f61f711d7d1b0d167c, 0x06530dfa1b791d9c114712a70a2608b1,
   0x152e149b15a706b80fc509cb12f901da, 0x05791c6000f513a61c3b15791006002f, 0x1f4b0dde168211b51815103512501d14,
   0x0ec91e470e53024e12ce0ff11e120d93, 0x028a14d41ede1ea11f99160a1b520d5a, 0x0fe0151f0ba405a619c119910e38109f,
   0x1d9b0df908b012a614f51706167b1d7c, 0x0f631cba1507069d08f4083616bb1b14, 0x024d1e460d920ff011b40ddd1d131034,
   0x13a51c5f002e157806b7149a01d909ca, 0x069c1cb91b13083512a50df81d7b1705, 0x05a5151e109e19901ea014d30d591609,
   0x198f151d160814d208341cb817040df7, 0x15771c5e09c914990fef1e4510330ddc, 0x1e431c5c1cb6151b151a1c5b1c591c5a,
   0x14981c5d0ddb1e4414d1151c0df61cb7]

/-- ecc/gf13.c:56-1081 `gf13_log`, in 16 parts. -/
def logRows : List (List Nat) :=
  [logPart0, logPart1, logPart2, logPart3, logPart4, logPart5, logPart6, logPart7, logPart8, logPart9, logPart10, logPart11, logPart12, logPart13, logPart14, logPart15]

/-- `gf13_log[i]` (for `i < 8192`). -/
def log (i : Nat) : Nat := (((logRows.getD (i / 512) []).getD (i / 8 % 64) 0) >>> (16 * (7 - i % 8))) % 65536

/-- ecc/gf13.c:1083-2108, part 0 of `gf13_exp`: 64 rows of 8 entries; each number is one row, four hexadecimal digits per
entry, in the order of the source. -/
def expPart0 : List Nat :=
  [0x00010002000400080010002000400080, 0x01000200040008001000001b0036006c, 0x00d801b0036006c00d801b00161b0c2d,
   0x185a10af0145028a05140a28145008bb, 0x117602f705ee0bdc17b80f6b1ed61db7, 0x1b7516f10df91bf217ff0fe51fca1f8f,
   0x1f051e111c39186910c9018903120624, 0x0c481890113b026d04da09b4136806cb, 0x0d961b2c16430c9d193a126f04c5098a,
   0x131406330c6618cc1183031d063a0c74, 0x18e811cb038d071a0e341c6818cb118d, 0x030106020c041808100b000d001a0034,
   0x006800d001a0034006800d001a00141b, 0x082d105a00af015e02bc05780af015e0, 0x0bdb17b60f771eee1dc71b9517310e79,
   0x1cf219ff13e507d10fa21f441e931d3d, 0x1a6114d909a9135206bf0d7e1afc15e3, 0x0bdd17ba0f6f1ede1da71b5516b10d79,
   0x1af215ff0be517ca0f8f1f1e1e271c55, 0x18b1117902e905d20ba417480e8b1d16, 0x1a37147508f111e203df07be0f7c1ef8,
   0x1deb1bcd17810f191e321c7f18e511d1, 0x03b907720ee41dc81b8b170d0e011c02, 0x181f1025005100a20144028805100a20,
   0x1440089b1136027704ee09dc13b8076b, 0x0ed61dac1b43169d0d211a42149f0925, 0x124a048f091e123c046308c6118c0303,
   0x06060c0c1818102b004d009a01340268, 0x04d009a01340069b0d361a6c14c3099d, 0x133a066f0cde19bc136306dd0dba1b74,
   0x16f30dfd1bfa17ef0fc51f8a1f0f1e05, 0x1c111839106900c90192032406480c90, 0x1920125b04ad095a12b405730ae615cc,
   0x0b8317060e171c2e1847109501310262, 0x04c409881310063b0c7618ec11c3039d, 0x073a0e741ce819cb138d07010e021c04,
   0x1813103d006100c20184030806100c20, 0x1840109b012d025a04b4096812d005bb, 0x0b7616ec0dc31b8617170e351c6a18cf,
   0x1185031106220c441888110b020d041a, 0x0834106800cb0196032c06580cb01960, 0x12db05ad0b5a16b40d731ae615d70bb5,
   0x176a0ecf1d9e1b2716550cb1196212df, 0x05a50b4a16940d331a6614d709b5136a, 0x06cf0d9e1b3c16630cdd19ba136f06c5,
   0x0d8a1b1416330c7d18fa11ef03c5078a, 0x0f141e281c4b188d1101021904320864, 0x10c8018b0316062c0c5818b0117b02ed,
   0x05da0bb417680ecb1d961b3716750cf1, 0x19e213df07a50f4a1e941d331a7d14e1, 0x09d913b2077f0efe1dfc1be317dd0fa1,
   0x1f421e9f1d251a5114b9096912d205bf, 0x0b7e16fc0de31bc617970f351e6a1ccf, 0x1985131106390c7218e411d303bd077a,
   0x0ef41de81bcb178d0f011e021c1f1825, 0x105100b9017202e405c80b9017200e5b, 0x1cb6197712f505f10be217c40f931f26,
   0x1e571cb5197112f905e90bd217a40f53, 0x1ea61d571ab515710af915f20bff17fe, 0x0fe71fce1f871f151e311c7918e911c9,
   0x038907120e241c48188b110d02010402, 0x08041008000b0016002c005800b00160, 0x02c005800b0016000c1b1836107700f5,
   0x01ea03d407a80f501ea01d5b1aad1541]

/-- ecc/gf13.c:1083-2108, part 1 of `gf13_exp`: 64 rows of 8 entries; each number is one row, four hexadecimal digits per
entry, in the order of the source. -/
def expPart1 : List Nat :=
  [0x0a9915320a7f14fe09e713ce07870f0e, 0x1e1c1c23185d10a1015902b205640ac8, 0x15900b3b16760cf719ee13c707950f2a,
   0x1e541cb3197d12e105d90bb217640ed3, 0x1da61b5716b50d711ae215df0ba5174a, 0x0e8f1d1e1a27145508b1116202df05be,
   0x0b7c16f80deb1bd617b70f751eea1dcf, 0x1b8517110e391c7218ff11e503d107a2, 0x0f441e881d0b1a0d140108191032007f,
   0x00fe01fc03f807f00fe01fc01f9b1f2d, 0x1e411c99192912490489091212240453, 0x08a6114c028305060a0c1418082b1056,
   0x00b7016e02dc05b80b7016e00ddb1bb6, 0x17770ef51dea1bcf17850f111e221c5f, 0x18a5115102b905720ae415c80b8b1716,
   0x0e371c6e18c71195033106620cc41988, 0x130b060d0c1a1834107300fd01fa03f4, 0x07e80fd01fa01f5b1ead1d411a991529,
   0x0a491492093f127e04e709ce139c0723, 0x0e461c8c1903121d0421084210840113, 0x0226044c08981130027b04f609ec13d8,
   0x07ab0f561eac1d431a9d15210a5914b2, 0x097f12fe05e70bce179c0f231e461c97, 0x1935127104f909f213e407d30fa61f4c,
   0x1e831d1d1a21145908a9115202bf057e, 0x0afc15f80beb17d60fb71f6e1ec71d95, 0x1b3116790ce919d213bf07650eca1d94,
   0x1b33167d0ce119c2139f07250e4a1c94, 0x1933127d04e109c2138407130e261c4c, 0x1883111d0221044208841108020b0416,
   0x082c105800ab015602ac05580ab01560, 0x0adb15b60b7716ee0dc71b8e17070e15, 0x1c2a184f108501110222044408881110,
   0x023b047608ec11d803ab07560eac1d58, 0x1aab154d0a8115020a1f143e086710ce, 0x0187030e061c0c38187010fb01ed03da,
   0x07b40f681ed01dbb1b6d16c10d991b32, 0x167f0ce519ca138f07050e0a1c141833, 0x107d00e101c2038407080e101c20185b,
   0x10ad0141028205040a081410083b1076, 0x00f701ee03dc07b80f701ee01ddb1bad, 0x17410e991d321a7f14e509d113a2075f,
   0x0ebe1d7c1ae315dd0ba117420e9f1d3e, 0x1a6714d509b1136206df0dbe1b7c16e3, 0x0ddd1bba176f0ec51d8a1b0f16050c11,
   0x1822105f00a5014a029405280a5014a0, 0x095b12b605770aee15dc0ba317460e97, 0x1d2e1a4714950931126204df09be137c,
   0x06e30dc61b8c17030e1d1c3a186f10c5, 0x0191032206440c881910123b046d08da, 0x11b4037306e60dcc1b98172b0e4d1c9a,
   0x192f124504910922124404930926124c, 0x04830906120c04030806100c00030006, 0x000c00180030006000c0018003000600,
   0x0c001800101b002d005a00b4016802d0, 0x05a00b4016800d1b1a36147708f511ea, 0x03cf079e0f3c1e781ceb19cd13810719,
   0x0e321c6418d311bd036106c20d841b08, 0x160b0c0d181a102f0045008a01140228, 0x045008a01140029b05360a6c14d809ab,
   0x135606b70d6e1adc15a30b5d16ba0d6f, 0x1ade15a70b5516aa0d4f1a9e15270a55, 0x14aa094f129e05270a4e149c09231246,
   0x0497092e125c04a30946128c05030a06]

/-- ecc/gf13.c:1083-2108, part 2 of `gf13_exp`: 64 rows of 8 entries; each number is one row, four hexadecimal digits per
entry, in the order of the source. -/
def expPart2 : List Nat :=
  [0x140c080310060017002e005c00b80170, 0x02e005c00b8017000e1b1c36187710f5, 0x01f103e207c40f881f101e3b1c6d18c1,
   0x1199032906520ca41948128b050d0a1a, 0x1434087310e601d703ae075c0eb81d70, 0x1afb15ed0bc117820f1f1e3e1c6718d5,
   0x11b1037906f20de41bc8178b0f0d1e1a, 0x1c2f184510910139027204e409c81390, 0x073b0e761cec19c3139d07210e421c84,
   0x1913123d046108c21184031306260c4c, 0x1898112b024d049a0934126804cb0996, 0x132c06430c86190c1203041d083a1074,
   0x00f301e603cc07980f301e601cdb19ad, 0x134106990d321a6414d309bd137a06ef, 0x0dde1bbc17630edd1dba1b6f16c50d91,
   0x1b22165f0ca5194a128f05050a0a1414, 0x0833106600d701ae035c06b80d701ae0, 0x15db0bad175a0eaf1d5e1aa715550ab1,
   0x15620adf15be0b6716ce0d871b0e1607, 0x0c15182a104f0085010a021404280850, 0x10a0015b02b6056c0ad815b00b7b16f6,
   0x0df71bee17c70f951f2a1e4f1c851911, 0x1239046908d211a4035306a60d4c1a98, 0x152b0a4d149a092f125e04a7094e129c,
   0x05230a46148c090312060417082e105c, 0x00a30146028c05180a30146008db11b6, 0x037706ee0ddc1bb8176b0ecd1d9a1b2f,
   0x16450c911922125f04a5094a12940533, 0x0a6614cc0983130606170c2e185c10a3, 0x015d02ba05740ae815d00bbb17760ef7,
   0x1dee1bc717950f311e621cdf19a51351, 0x06b90d721ae415d30bbd177a0eef1dde, 0x1ba717550eb11d621adf15a50b5116a2,
   0x0d5f1abe15670ad515aa0b4f169e0d27, 0x1a4e14870915122a044f089e113c0263, 0x04c6098c1318062b0c5618ac1143029d,
   0x053a0a7414e809cb139607370e6e1cdc, 0x19a3135d06a10d421a8415130a3d147a, 0x08ef11de03a7074e0e9c1d381a6b14cd,
   0x09811302061f0c3e187c10e301dd03ba, 0x07740ee81dd01bbb176d0ec11d821b1f, 0x16250c5118a2115f02a5054a0a941528,
   0x0a4b14960937126e04c7098e131c0623, 0x0c46188c1103021d043a087410e801cb, 0x0396072c0e581cb0197b12ed05c10b82,
   0x17040e131c26185710b5017102e205c4, 0x0b8817100e3b1c7618f711f503f107e2, 0x0fc41f881f0b1e0d1c01181910290049,
   0x009201240248049009201240049b0936, 0x126c04c30986130c06030c06180c1003, 0x001d003a007400e801d003a007400e80,
   0x1d001a1b142d08411082011f023e047c, 0x08f811f003fb07f60fec1fd81fab1f4d, 0x1e811d191a29144908891112023f047e,
   0x08fc11f803eb07d60fac1f581eab1d4d, 0x1a8115190a29145208bf117e02e705ce, 0x0b9c17380e6b1cd619b7137506f10de2,
   0x1bc417930f3d1e7a1cef19c513910739, 0x0e721ce419d313bd07610ec21d841b13, 0x163d0c6118c2119f0325064a0c941928,
   0x124b048d091a1234047308e611cc0383, 0x07060e0c1c18182b104d008101020204, 0x040808101020005b00b6016c02d805b0,
   0x0b6016c00d9b1b3616770cf519ea13cf]

/-- ecc/gf13.c:1083-2108, part 3 of `gf13_exp`: 64 rows of 8 entries; each number is one row, four hexadecimal digits per
entry, in the order of the source. -/
def expPart3 : List Nat :=
  [0x07850f0a1e141c33187d10e101d903b2, 0x07640ec81d901b3b166d0cc11982131f, 0x06250c4a18941133027d04fa09f413e8,
   0x07cb0f961f2c1e431c9d1921125904a9, 0x095212a405530aa6154c0a8315060a17, 0x142e0847108e0107020e041c08381070,
   0x00fb01f603ec07d80fb01f601edb1dad, 0x1b4116990d291a5214bf096512ca058f, 0x0b1e163c0c6318c611970335066a0cd4,
   0x19a8134b068d0d1a1a34147308fd11fa, 0x03ef07de0fbc1f781eeb1dcd1b811719, 0x0e291c5218bf116502d105a20b441688,
   0x0d0b1a161437087510ea01cf039e073c, 0x0e781cf019fb13ed07c10f821f041e13, 0x1c3d186110d901a9035206a40d481a90,
   0x153b0a6d14da09af135e06a70d4e1a9c, 0x15230a5d14ba096f12de05a70b4e169c, 0x0d231a4614970935126a04cf099e133c,
   0x06630cc6198c1303061d0c3a187410f3, 0x01fd03fa07f40fe81fd01fbb1f6d1ec1, 0x1d991b2916490c891912123f046508ca,
   0x1194033306660ccc1998132b064d0c9a, 0x1934127304fd09fa13f407f30fe61fcc, 0x1f831f1d1e211c5918a9114902890512,
   0x0a241448088b11160237046e08dc11b8, 0x036b06d60dac1b5816ab0d4d1a9a152f, 0x0a45148a090f121e0427084e109c0123,
   0x0246048c09181230047b08f611ec03c3, 0x07860f0c1e181c2b184d108101190232, 0x046408c81190033b06760cec19d813ab,
   0x074d0e9a1d341a7314fd09e113c2079f, 0x0f3e1e7c1ce319dd13a107590eb21d64, 0x1ad315bd0b6116c20d9f1b3e16670cd5,
   0x19aa134f06850d0a1a141433087d10fa, 0x01ef03de07bc0f781ef01dfb1bed17c1, 0x0f991f321e7f1ce519d113b907690ed2,
   0x1da41b5316bd0d611ac2159f0b25164a, 0x0c8f191e1227045508aa115402b30566, 0x0acc15980b2b16560cb7196e12c70595,
   0x0b2a16540cb3196612d705b50b6a16d4, 0x0db31b6616d70db51b6a16cf0d851b0a, 0x160f0c05180a100f0005000a00140028,
   0x005000a00140028005000a001400081b, 0x1036007700ee01dc03b807700ee01dc0, 0x1b9b172d0e411c82191f1225045108a2,
   0x1144029305260a4c1498092b125604b7, 0x096e12dc05a30b46168c0d031a061417, 0x0835106a00cf019e033c06780cf019e0,
   0x13db07ad0f5a1eb41d731afd15e10bd9, 0x17b20f7f1efe1de71bd517b10f791ef2, 0x1dff1be517d10fb91f721eff1de51bd1,
   0x17b90f691ed21dbf1b6516d10db91b72, 0x16ff0de51bca178f0f051e0a1c0f1805, 0x10110039007200e401c8039007200e40,
   0x1c80191b122d04410882110402130426, 0x084c1098012b025604ac095812b0057b, 0x0af615ec0bc317860f171e2e1c471895,
   0x1131027904f209e413c8078b0f161e2c, 0x1c43189d1121025904b2096412c8058b, 0x0b16162c0c43188611170235046a08d4,
   0x11a8034b06960d2c1a5814ab094d129a, 0x052f0a5e14bc096312c605970b2e165c, 0x0ca31946129705350a6a14d409b31366,
   0x06d70dae1b5c16a30d5d1aba156f0ac5]

/-- ecc/gf13.c:1083-2108, part 4 of `gf13_exp`: 64 rows of 8 entries; each number is one row, four hexadecimal digits per
entry, in the order of the source. -/
def expPart4 : List Nat :=
  [0x158a0b0f161e0c27184e10870115022a, 0x045408a8115002bb05760aec15d80bab, 0x17560eb71d6e1ac715950b3116620cdf,
   0x19be136706d50daa1b5416b30d7d1afa, 0x15ef0bc5178a0f0f1e1e1c27185510b1, 0x017902f205e40bc817900f3b1e761cf7,
   0x19f513f107f90ff21fe41fd31fbd1f61, 0x1ed91da91b4916890d091a12143f0865, 0x10ca018f031e063c0c7818f011fb03ed,
   0x07da0fb41f681ecb1d8d1b0116190c29, 0x185210bf016502ca05940b2816500cbb, 0x197612f705f50bea17d40fb31f661ed7,
   0x1db51b7116f90de91bd217bf0f651eca, 0x1d8f1b0516110c39187210ff01e503ca, 0x07940f281e501cbb196d12c105990b32,
   0x16640cd319a6135706b50d6a1ad415b3, 0x0b7d16fa0def1bde17a70f551eaa1d4f, 0x1a8515110a39147208ff11fe03e707ce,
   0x0f9c1f381e6b1ccd1981131906290c52, 0x18a4115302bd057a0af415e80bcb1796, 0x0f371e6e1cc71995133106790cf219e4,
   0x13d307bd0f7a1ef41df31bfd17e10fd9, 0x1fb21f7f1ee51dd11bb917690ec91d92, 0x1b3f16650cd119a2135f06a50d4a1a94,
   0x15330a7d14fa09ef13de07a70f4e1e9c, 0x1d231a5d14a1095912b2057f0afe15fc, 0x0be317c60f971f2e1e471c9519311279,
   0x04e909d213a407530ea61d4c1a83151d, 0x0a211442089f113e026704ce099c1338, 0x066b0cd619ac1343069d0d3a1a7414f3,
   0x09fd13fa07ef0fde1fbc1f631edd1da1, 0x1b5916a90d491a92153f0a6514ca098f, 0x131e06270c4e189c1123025d04ba0974,
   0x12e805cb0b96172c0e431c8619171235, 0x047108e211c4039307260e4c1c98192b, 0x124d04810902120404130826104c0083,
   0x0106020c04180830106000db01b6036c, 0x06d80db01b6016db0dad1b5a16af0d45, 0x1a8a150f0a05140a080f101e0027004e,
   0x009c0138027004e009c01380071b0e36, 0x1c6c18c3119d032106420c841908120b, 0x040d081a1034007300e601cc03980730,
   0x0e601cc0199b132d06410c8219041213, 0x043d087a10f401f303e607cc0f981f30, 0x1e7b1ced19c1139907290e521ca41953,
   0x12bd05610ac215840b1316260c5718ae, 0x11470295052a0a5414a8094b12960537, 0x0a6e14dc09a3134606970d2e1a5c14a3,
   0x095d12ba056f0ade15bc0b6316c60d97, 0x1b2e16470c95192a124f0485090a1214, 0x0433086610cc01830306060c0c181830,
   0x107b00ed01da03b407680ed01da01b5b, 0x16ad0d411a82151f0a25144a088f111e, 0x0227044e089c1138026b04d609ac1358,
   0x06ab0d561aac15430a9d153a0a6f14de, 0x09a7134e06870d0e1a1c1423085d10ba, 0x016f02de05bc0b7816f00dfb1bf617f7,
   0x0ff51fea1fcf1f851f111e391c6918c9, 0x1189030906120c241848108b010d021a, 0x0434086810d001bb037606ec0dd81bb0,
   0x177b0eed1dda1baf17450e911d221a5f, 0x14a5095112a2055f0abe157c0ae315c6, 0x0b97172e0e471c8e1907121504310862,
   0x10c401930326064c0c981930127b04ed]

/-- ecc/gf13.c:1083-2108, part 5 of `gf13_exp`: 64 rows of 8 entries; each number is one row, four hexadecimal digits per
entry, in the order of the source. -/
def expPart5 : List Nat :=
  [0x09da13b407730ee61dcc1b83171d0e21, 0x1c42189f1125025104a209441288050b, 0x0a16142c084310860117022e045c08b8,
   0x117002fb05f60bec17d80fab1f561eb7, 0x1d751af115f90be917d20fbf1f7e1ee7, 0x1dd51bb117790ee91dd21bbf17650ed1,
   0x1da21b5f16a50d511aa2155f0aa5154a, 0x0a8f151e0a27144e0887110e0207040e, 0x081c1038006b00d601ac035806b00d60,
   0x1ac0159b0b2d165a0caf195e12a70555, 0x0aaa15540ab315660ad715ae0b47168e, 0x0d071a0e14070815102a004f009e013c,
   0x027804f009e013c0079b0f361e6c1cc3, 0x199d132106590cb2196412d305bd0b7a, 0x16f40df31be617d70fb51f6a1ecf1d85,
   0x1b1116390c6918d211bf036506ca0d94, 0x1b28164b0c8d191a122f0445088a1114, 0x0233046608cc1198032b06560cac1958,
   0x12ab054d0a9a15340a7314e609d713ae, 0x07470e8e1d1c1a23145d08a11142029f, 0x053e0a7c14f809eb13d607b70f6e1edc,
   0x1da31b5d16a10d591ab2157f0ae515ca, 0x0b8f171e0e271c4e1887111502310462, 0x08c41188030b06160c2c185810ab014d,
   0x029a05340a6814d009bb137606f70dee, 0x1bdc17a30f5d1eba1d6f1ac515910b39, 0x16720cff19fe13e707d50faa1f541eb3,
   0x1d7d1ae115d90ba917520ebf1d7e1ae7, 0x15d50bb117620edf1dbe1b6716d50db1, 0x1b6216df0da51b4a168f0d051a0a140f,
   0x0805100a000f001e003c007800f001e0, 0x03c007800f001e001c1b182d10410099, 0x0132026404c809901320065b0cb6196c,
   0x12c3059d0b3a16740cf319e613d707b5, 0x0f6a1ed41db31b7d16e10dd91bb2177f, 0x0ee51dca1b8f17050e111c22185f10a5,
   0x015102a205440a8815100a3b147608f7, 0x11ee03c7078e0f1c1e381c6b18cd1181, 0x031906320c6418c8118b030d061a0c34,
   0x186810cb018d031a06340c6818d011bb, 0x036d06da0db41b6816cb0d8d1b1a162f, 0x0c45188a110f0205040a08141028004b,
   0x0096012c025804b0096012c0059b0b36, 0x166c0cc31986131706350c6a18d411b3, 0x037d06fa0df41be817cb0f8d1f1a1e2f,
   0x1c4518911139026904d209a41348068b, 0x0d161a2c1443089d113a026f04de09bc, 0x137806eb0dd61bac17430e9d1d3a1a6f,
   0x14c509911322065f0cbe197c12e305dd, 0x0bba17740ef31de61bd717b50f711ee2, 0x1ddf1ba517510eb91d721aff15e50bd1,
   0x17a20f5f1ebe1d671ad515b10b7916f2, 0x0dff1bfe17e70fd51faa1f4f1e851d11, 0x1a39146908c91192033f067e0cfc19f8,
   0x13eb07cd0f9a1f341e731cfd19e113d9, 0x07a90f521ea41d531abd15610ad915b2, 0x0b7f16fe0de71bce17870f151e2a1c4f,
   0x188511110239047208e411c8038b0716, 0x0e2c1c5818ab114d028105020a041408, 0x080b10160037006e00dc01b8037006e0,
   0x0dc01b80171b0e2d1c5a18af11450291, 0x05220a441488090b12160437086e10dc, 0x01a30346068c0d181a30147b08ed11da,
   0x03af075e0ebc1d781aeb15cd0b811702]

/-- ecc/gf13.c:1083-2108, part 6 of `gf13_exp`: 64 rows of 8 entries; each number is one row, four hexadecimal digits per
entry, in the order of the source. -/
def expPart6 : List Nat :=
  [0x0e1f1c3e186710d501b1036206c40d88, 0x1b10163b0c6d18da11af0345068a0d14, 0x1a28144b088d111a022f045e08bc1178,
   0x02eb05d60bac17580eab1d561ab71575, 0x0af115e20bdf17be0f671ece1d871b15, 0x16310c7918f211ff03e507ca0f941f28,
   0x1e4b1c8d190112190429085210a40153, 0x02a6054c0a9815300a7b14f609f713ee, 0x07c70f8e1f1c1e231c5d18a1115902a9,
   0x05520aa415480a8b15160a37146e08c7, 0x118e0307060e0c1c1838106b00cd019a, 0x033406680cd019a0135b06ad0d5a1ab4,
   0x15730afd15fa0bef17de0fa71f4e1e87, 0x1d151a31147908e911d203bf077e0efc, 0x1df81beb17cd0f811f021e1f1c251851,
   0x10b9016902d205a40b4816900d3b1a76, 0x14f709f513ea07cf0f9e1f3c1e631cdd, 0x19a1135906a90d521aa415530abd157a,
   0x0aef15de0ba7174e0e871d0e1a071415, 0x0831106200df01be037c06f80df01be0, 0x17db0fad1f5a1eaf1d451a9115390a69,
   0x14d209bf137e06e70dce1b9c17230e5d, 0x1cba196f12c505910b2216440c931926, 0x125704b5096a12d405b30b6616cc0d83,
   0x1b0616170c35186a10cf0185030a0614, 0x0c28185010bb016d02da05b40b6816d0, 0x0dbb1b7616f70df51bea17cf0f851f0a,
   0x1e0f1c0518111039006900d201a40348, 0x06900d201a40149b092d125a04af095e, 0x12bc05630ac6158c0b0316060c17182e,
   0x10470095012a025404a8095012a0055b, 0x0ab6156c0ac315860b17162e0c47188e, 0x11070215042a085410a8014b0296052c,
   0x0a5814b0097b12f605f70bee17dc0fa3, 0x1f461e971d351a7114f909e913d207bf, 0x0f7e1efc1de31bdd17a10f591eb21d7f,
   0x1ae515d10bb917720eff1dfe1be717d5, 0x0fb11f621edf1da51b5116b90d691ad2, 0x15bf0b6516ca0d8f1b1e16270c5518aa,
   0x114f0285050a0a141428084b10960137, 0x026e04dc09b8137006fb0df61bec17c3, 0x0f9d1f3a1e6f1cc51991133906690cd2,
   0x19a4135306bd0d7a1af415f30bfd17fa, 0x0fef1fde1fa71f551eb11d791ae915c9, 0x0b8917120e3f1c7e18e711d503b10762,
   0x0ec41d881b0b160d0c011802101f0025, 0x004a00940128025004a009401280051b, 0x0a36146c08c311860317062e0c5c18b8,
   0x116b02cd059a0b3416680ccb19961337, 0x06750cea19d413b3077d0efa1df41bf3, 0x17fd0fe11fc21f9f1f251e511cb91969,
   0x12c905890b1216240c5318a6115702b5, 0x056a0ad415a80b4b16960d371a6e14c7, 0x0995132a064f0c9e193c126304dd09ba,
   0x137406f30de61bcc17830f1d1e3a1c6f, 0x18c51191033906720ce419c8138b070d, 0x0e1a1c34187310fd01e103c207840f08,
   0x1e101c3b186d10c10199033206640cc8, 0x1990133b066d0cda19b4137306fd0dfa, 0x1bf417f30ffd1ffa1fef1fc51f911f39,
   0x1e691cc91989130906090c1218241053, 0x00bd017a02f405e80bd017a00f5b1eb6, 0x1d771af515f10bf917f20fff1ffe1fe7,
   0x1fd51fb11f791ee91dc91b8917090e09]

/-- ecc/gf13.c:1083-2108, part 7 of `gf13_exp`: 64 rows of 8 entries; each number is one row, four hexadecimal digits per
entry, in the order of the source. -/
def expPart7 : List Nat :=
  [0x1c12183f106500d101a2034406880d10, 0x1a20145b08ad115a02af055e0abc1578, 0x0aeb15d60bb7176e0ec71d8e1b071615,
   0x0c31186210df01a5034a06940d281a50, 0x14bb096d12da05af0b5e16bc0d631ac6, 0x15970b35166a0ccf199e132706550caa,
   0x195412b3057d0afa15f40bf317e60fd7, 0x1fae1f471e951d311a7914e909c91392, 0x073f0e7e1cfc19e313dd07a10f421e84,
   0x1d131a3d146108d911b2037f06fe0dfc, 0x1bf817eb0fcd1f9a1f2f1e451c911939, 0x126904c90992132406530ca6194c1283,
   0x051d0a3a147408f311e603d707ae0f5c, 0x1eb81d6b1acd15810b1916320c7f18fe, 0x11e703d507aa0f541ea81d4b1a8d1501,
   0x0a191432087f10fe01e703ce079c0f38, 0x1e701cfb19ed13c107990f321e641cd3, 0x19bd136106d90db21b6416d30dbd1b7a,
   0x16ef0dc51b8a170f0e051c0a180f1005, 0x00110022004400880110022004400880, 0x1100021b0436086c10d801ab035606ac,
   0x0d581ab0157b0aed15da0baf175e0ea7, 0x1d4e1a8715150a31146208df11be0367, 0x06ce0d9c1b38166b0ccd199a132f0645,
   0x0c8a19141233047d08fa11f403f307e6, 0x0fcc1f981f2b1e4d1c81191912290449, 0x08921124025304a6094c1298052b0a56,
   0x14ac0943128605170a2e145c08a31146, 0x0297052e0a5c14b8096b12d605b70b6e, 0x16dc0da31b4616970d351a6a14cf0985,
   0x130a060f0c1e183c106300dd01ba0374, 0x06e80dd01ba0175b0ead1d5a1aaf1545, 0x0a9115220a5f14be096712ce05870b0e,
   0x161c0c23184610970135026a04d409a8, 0x135006bb0d761aec15c30b9d173a0e6f, 0x1cde19a7135506b10d621ac415930b3d,
   0x167a0cef19de13a707550eaa1d541ab3, 0x157d0ae115c20b9f173e0e671cce1987, 0x131506310c6218c41193033d067a0cf4,
   0x19e813cb078d0f1a1e341c7318fd11e1, 0x03d907b20f641ec81d8b1b0d16010c19, 0x1832107f00e501ca039407280e501ca0,
   0x195b12ad05410a8215040a1314260857, 0x10ae0147028e051c0a38147008fb11f6, 0x03f707ee0fdc1fb81f6b1ecd1d811b19,
   0x16290c491892113f026504ca09941328, 0x064b0c96192c1243049d093a127404f3, 0x09e613cc07830f061e0c1c03181d1021,
   0x005900b2016402c805900b2016400c9b, 0x1936127704f509ea13d407b30f661ecc, 0x1d831b1d16210c5918b2117f02e505ca,
   0x0b9417280e4b1c961937127504f109e2, 0x13c407930f261e4c1c83191d12210459, 0x08b2116402d305a60b4c16980d2b1a56,
   0x14b7097512ea05cf0b9e173c0e631cc6, 0x1997133506710ce219c41393073d0e7a, 0x1cf419f313fd07e10fc21f841f131e3d,
   0x1c6118d911a9034906920d241a48148b, 0x090d121a042f085e10bc016302c6058c, 0x0b1816300c7b18f611f703f507ea0fd4,
   0x1fa81f4b1e8d1d011a19142908491092, 0x013f027e04fc09f813f007fb0ff61fec, 0x1fc31f9d1f211e591ca9194912890509,
   0x0a121424085310a6015702ae055c0ab8]

/-- ecc/gf13.c:1083-2108, part 8 of `gf13_exp`: 64 rows of 8 entries; each number is one row, four hexadecimal digits per
entry, in the order of the source. -/
def expPart8 : List Nat :=
  [0x15700afb15f60bf717ee0fc71f8e1f07, 0x1e151c31187910e901c9039207240e48, 0x1c90193b126d04c10982130406130c26,
   0x184c1083011d023a047408e811d003bb, 0x07760eec1dd81bab174d0e811d021a1f, 0x1425085110a2015f02be057c0af815f0,
   0x0bfb17f60ff71fee1fc71f951f311e79, 0x1ce919c9138907090e121c24185310bd, 0x016102c205840b0816100c3b187610f7,
   0x01f503ea07d40fa81f501ebb1d6d1ac1, 0x15990b2916520cbf197e12e705d50baa, 0x17540eb31d661ad715b50b7116e20ddf,
   0x1bbe17670ed51daa1b4f16850d111a22, 0x145f08a5114a028f051e0a3c147808eb, 0x11d603b7076e0edc1db81b6b16cd0d81,
   0x1b02161f0c25184a108f0105020a0414, 0x0828105000bb017602ec05d80bb01760, 0x0edb1db61b7716f50df11be217df0fa5,
   0x1f4a1e8f1d051a111439086910d201bf, 0x037e06fc0df81bf017fb0fed1fda1faf, 0x1f451e911d391a6914c909891312063f,
   0x0c7e18fc11e303dd07ba0f741ee81dcb, 0x1b8d17010e191c32187f10e501d103a2, 0x07440e881d101a3b146d08c11182031f,
   0x063e0c7c18f811eb03cd079a0f341e68, 0x1ccb198d130106190c32186410d301bd, 0x037a06f40de81bd017bb0f6d1eda1daf,
   0x1b4516910d391a7214ff09e513ca078f, 0x0f1e1e3c1c6318dd11a1035906b20d64, 0x1ac8158b0b0d161a0c2f185e10a70155,
   0x02aa05540aa815500abb15760af715ee, 0x0bc7178e0f071e0e1c07181510310079, 0x00f201e403c807900f201e401c9b192d,
   0x124104990932126404d309a6134c0683, 0x0d061a0c1403081d103a006f00de01bc, 0x037806f00de01bc0179b0f2d1e5a1caf,
   0x1945129105390a7214e409d313a60757, 0x0eae1d5c1aa3155d0aa115420a9f153e, 0x0a6714ce0987130e06070c0e181c1023,
   0x005d00ba017402e805d00ba017400e9b, 0x1d361a7714f509f113e207df0fbe1f7c, 0x1ee31ddd1ba117590ea91d521abf1565,
   0x0ad115a20b5f16be0d671ace15870b15, 0x162a0c4f189e1127025504aa095412a8, 0x054b0a96152c0a4314860917122e0447,
   0x088e111c02230446088c1118022b0456, 0x08ac115802ab05560aac15580aab1556, 0x0ab7156e0ac7158e0b07160e0c07180e,
   0x10070015002a005400a8015002a00540, 0x0a8015000a1b1436087710ee01c7038e, 0x071c0e381c7018fb11ed03c107820f04,
   0x1e081c0b180d100100190032006400c8, 0x0190032006400c801900121b042d085a, 0x10b4017302e605cc0b9817300e7b1cf6,
   0x19f713f507f10fe21fc41f931f3d1e61, 0x1cd919a9134906890d121a24145308bd, 0x117a02ef05de0bbc17780eeb1dd61bb7,
   0x17750ef11de21bdf17a50f511ea21d5f, 0x1aa515510ab915720aff15fe0be717ce, 0x0f871f0e1e071c151831107900e901d2,
   0x03a407480e901d201a5b14ad09411282, 0x051f0a3e147c08e311c60397072e0e5c, 0x1cb8196b12cd05810b0216040c131826,
   0x105700b5016a02d405a80b5016a00d5b]

/-- ecc/gf13.c:1083-2108, part 9 of `gf13_exp`: 64 rows of 8 entries; each number is one row, four hexadecimal digits per
entry, in the order of the source. -/
def expPart9 : List Nat :=
  [0x1ab615770af515ea0bcf179e0f271e4e, 0x1c8719151231047908f211e403d307a6, 0x0f4c1e981d2b1a4d148109191232047f,
   0x08fe11fc03e307c60f8c1f181e2b1c4d, 0x188111190229045208a41148028b0516, 0x0a2c145808ab115602b7056e0adc15b8,
   0x0b6b16d60db71b6e16c70d951b2a164f, 0x0c85190a120f0405080a101400330066, 0x00cc0198033006600cc01980131b062d,
   0x0c5a18b4117302fd05fa0bf417e80fcb, 0x1f961f371e751cf119f913e907c90f92, 0x1f241e531cbd196112d905a90b5216a4,
   0x0d531aa615570ab5156a0acf159e0b27, 0x164e0c87190e12070415082a105400b3, 0x016602cc05980b3016600cdb19b61377,
   0x06f50dea1bd417b30f7d1efa1def1bc5, 0x17910f391e721cff19e513d107b90f72, 0x1ee41dd31bbd17610ed91db21b7f16e5,
   0x0dd11ba2175f0ea51d4a1a8f15050a11, 0x1422085f10be016702ce059c0b381670, 0x0cfb19f613f707f50fea1fd41fb31f7d,
   0x1ee11dd91ba917490e891d121a3f1465, 0x08d111a2035f06be0d7c1af815eb0bcd, 0x179a0f2f1e5e1ca7195512b105790af2,
   0x15e40bd317a60f571eae1d471a951531, 0x0a7914f209ff13fe07e70fce1f9c1f23, 0x1e5d1ca1195912a905490a9215240a53,
   0x14a6095712ae05470a8e151c0a231446, 0x0897112e0247048e091c1238046b08d6, 0x11ac034306860d0c1a18142b084d109a,
   0x012f025e04bc097812f005fb0bf617ec, 0x0fc31f861f171e351c7118f911e903c9, 0x07920f241e481c8b190d120104190832,
   0x106400d301a6034c06980d301a6014db, 0x09ad135a06af0d5e1abc15630add15ba, 0x0b6f16de0da71b4e16870d151a2a144f,
   0x0885110a020f041e083c107800eb01d6, 0x03ac07580eb01d601adb15ad0b411682, 0x0d1f1a3e146708d511aa034f069e0d3c,
   0x1a7814eb09cd139a072f0e5e1cbc1963, 0x12dd05a10b4216840d131a26145708b5, 0x116a02cf059e0b3c16780ceb19d613b7,
   0x07750eea1dd41bb3177d0ee11dc21b9f, 0x17250e511ca2195f12a505510aa21544, 0x0a9315260a5714ae0947128e05070a0e,
   0x141c082310460097012e025c04b80970, 0x12e005db0bb6176c0ec31d861b171635, 0x0c7118e211df03a5074a0e941d281a4b,
   0x148d09011202041f083e107c00e301c6, 0x038c07180e301c6018db11ad03410682, 0x0d041a08140b080d101a002f005e00bc,
   0x017802f005e00bc017800f1b1e361c77, 0x18f511f103f907f20fe41fc81f8b1f0d, 0x1e011c19182910490089011202240448,
   0x08901120025b04b6096c12d805ab0b56, 0x16ac0d431a8615170a35146a08cf119e, 0x0327064e0c9c1938126b04cd099a1334,
   0x06730ce619cc1383071d0e3a1c7418f3, 0x11fd03e107c20f841f081e0b1c0d1801, 0x10190029005200a40148029005200a40,
   0x1480091b1236047708ee11dc03a30746, 0x0e8c1d181a2b144d08811102021f043e, 0x087c10f801eb03d607ac0f581eb01d7b,
   0x1aed15c10b9917320e7f1cfe19e713d5]

/-- ecc/gf13.c:1083-2108, part 10 of `gf13_exp`: 64 rows of 8 entries; each number is one row, four hexadecimal digits per
entry, in the order of the source. -/
def expPart10 : List Nat :=
  [0x07b10f621ec41d931b3d16610cd919b2, 0x137f06e50dca1b9417330e7d1cfa19ef, 0x13c507910f221e441c93193d126104d9,
   0x09b2136406d30da61b4c16830d1d1a3a, 0x146f08c5118a030f061e0c3c187810eb, 0x01cd039a07340e681cd019bb136d06c1,
   0x0d821b0416130c3d187a10ef01c5038a, 0x07140e281c5018bb116d02c105820b04, 0x16080c0b18161037007500ea01d403a8,
   0x07500ea01d401a9b152d0a411482091f, 0x123e046708ce119c032306460c8c1918, 0x122b044d089a1134027304e609cc1398,
   0x072b0e561cac1943129d05210a421484, 0x09131226045708ae115c02a305460a8c, 0x15180a2b145608b7116e02c7058e0b1c,
   0x16380c6b18d611b7037506ea0dd41ba8, 0x174b0e8d1d1a1a2f144508911122025f, 0x04be097c12f805eb0bd617ac0f431e86,
   0x1d171a35147108f911f203ff07fe0ffc, 0x1ff81feb1fcd1f811f191e291c491889, 0x11090209041208241048008b0116022c,
   0x045808b0116002db05b60b6c16d80dab, 0x1b5616b70d751aea15cf0b85170a0e0f, 0x1c1e1827105500b1016202c405880b10,
   0x16200c5b18b6117702f505ea0bd417a8, 0x0f4b1e961d371a7514f109f913f207ff, 0x0ffe1ffc1fe31fdd1fa11f591ea91d49,
   0x1a8915090a091412083f107e00e701ce, 0x039c07380e701ce019db13ad07410e82, 0x1d041a13143d086110c2019f033e067c,
   0x0cf819f013fb07ed0fda1fb41f731efd, 0x1de11bd917a90f491e921d3f1a6514d1, 0x09b9137206ff0dfe1bfc17e30fdd1fba,
   0x1f6f1ec51d911b3916690cc91992133f, 0x06650cca19941333067d0cfa19f413f3, 0x07fd0ffa1ff41ff31ffd1fe11fd91fa9,
   0x1f491e891d091a09140908091012003f, 0x007e00fc01f803f007e00fc01f801f1b, 0x1e2d1c41189911290249049209241248,
   0x048b0916122c04430886110c02030406, 0x080c1018002b005600ac015802b00560, 0x0ac015800b1b16360c7718ee11c70395,
   0x072a0e541ca8194b128d05010a021404, 0x08131026005700ae015c02b805700ae0, 0x15c00b9b17360e771cee19c713950731,
   0x0e621cc41993133d06610cc219841313, 0x063d0c7a18f411f303fd07fa0ff41fe8, 0x1fcb1f8d1f011e191c29184910890109,
   0x0212042408481090013b027604ec09d8, 0x13b0077b0ef61dec1bc3179d0f211e42, 0x1c9f1925125104b9097212e405d30ba6,
   0x174c0e831d061a171435087110e201df, 0x03be077c0ef81df01bfb17ed0fc11f82, 0x1f1f1e251c5118b9116902c905920b24,
   0x16480c8b19161237047508ea11d403b3, 0x07660ecc1d981b2b164d0c811902121f, 0x0425084a10940133026604cc09981330,
   0x067b0cf619ec13c3079d0f3a1e741cf3, 0x19fd13e107d90fb21f641ed31dbd1b61, 0x16d90da91b5216bf0d651aca158f0b05,
   0x160a0c0f181e1027005500aa015402a8, 0x05500aa015400a9b15360a7714ee09c7, 0x138e07070e0e1c1c1823105d00a10142,
   0x028405080a101420085b10b6017702ee]

/-- ecc/gf13.c:1083-2108, part 11 of `gf13_exp`: 64 rows of 8 entries; each number is one row, four hexadecimal digits per
entry, in the order of the source. -/
def expPart11 : List Nat :=
  [0x05dc0bb817700efb1df61bf717f50ff1, 0x1fe21fdf1fa51f511eb91d691ac91589, 0x0b0916120c3f187e10e701d503aa0754,
   0x0ea81d501abb156d0ac115820b1f163e, 0x0c6718ce11870315062a0c5418a8114b, 0x028d051a0a34146808cb11960337066e,
   0x0cdc19b8136b06cd0d9a1b3416730cfd, 0x19fa13ef07c50f8a1f141e331c7d18e1, 0x11d903a907520ea41d481a8b150d0a01,
   0x1402081f103e006700ce019c03380670, 0x0ce019c0139b072d0e5a1cb4197312fd, 0x05e10bc217840f131e261c5718b51171,
   0x02f905f20be417c80f8b1f161e371c75, 0x18f111f903e907d20fa41f481e8b1d0d, 0x1a0114190829105200bf017e02fc05f8,
   0x0bf017e00fdb1fb61f771ef51df11bf9, 0x17e90fc91f921f3f1e651cd119b91369, 0x06c90d921b2416530cbd197a12ef05c5,
   0x0b8a17140e331c6618d711b5037106e2, 0x0dc41b88170b0e0d1c1a182f10450091, 0x01220244048809101220045b08b6116c,
   0x02c305860b0c16180c2b185610b70175, 0x02ea05d40ba817500ebb1d761af715f5, 0x0bf117e20fdf1fbe1f671ed51db11b79,
   0x16e90dc91b92173f0e651cca198f1305, 0x06110c2218441093013d027a04f409e8, 0x13d007bb0f761eec1dc31b9d17210e59,
   0x1cb2197f12e505d10ba217440e931d26, 0x1a5714b5097112e205df0bbe177c0ee3, 0x1dc61b9717350e711ce219df13a50751,
   0x0ea21d441a93153d0a6114c2099f133e, 0x06670cce199c1323065d0cba197412f3, 0x05fd0bfa17f40ff31fe61fd71fb51f71,
   0x1ef91de91bc917890f091e121c3f1865, 0x10d101b9037206e40dc81b90173b0e6d, 0x1cda19af134506910d221a441493093d,
   0x127a04ef09de13bc07630ec61d8c1b03, 0x161d0c211842109f0125024a04940928, 0x125004bb097612ec05c30b86170c0e03,
   0x1c0618171035007100e201c403880710, 0x0e201c40189b112d0241048209041208, 0x040b0816102c00430086010c02180430,
   0x086010c0019b0336066c0cd819b0137b, 0x06ed0dda1bb417730efd1dfa1bef17c5, 0x0f911f221e5f1ca5195112b905690ad2,
   0x15a40b5316a60d571aae15470a95152a, 0x0a4f149e0927124e0487090e121c0423, 0x0846108c01030206040c08181030007b,
   0x00f601ec03d807b00f601ec01d9b1b2d, 0x16410c991932127f04e509ca13940733, 0x0e661ccc1983131d06210c4218841113,
   0x023d047a08f411e803cb07960f2c1e58, 0x1cab194d128105190a32146408d311a6, 0x035706ae0d5c1ab8156b0acd159a0b2f,
   0x165e0ca7194e128705150a2a145408b3, 0x116602d705ae0b5c16b80d6b1ad615b7, 0x0b7516ea0dcf1b9e17270e551caa194f,
   0x128505110a22144408931126025704ae, 0x095c12b8056b0ad615ac0b4316860d17, 0x1a2e14470895112a024f049e093c1278,
   0x04eb09d613ac07430e861d0c1a03141d, 0x08211042009f013e027c04f809f013e0, 0x07db0fb61f6c1ec31d9d1b2116590ca9,
   0x195212bf05650aca15940b3316660cd7]

/-- ecc/gf13.c:1083-2108, part 12 of `gf13_exp`: 64 rows of 8 entries; each number is one row, four hexadecimal digits per
entry, in the order of the source. -/
def expPart12 : List Nat :=
  [0x19ae134706950d2a1a5414b3097d12fa, 0x05ef0bde17bc0f631ec61d971b351671, 0x0cf919f213ff07e50fca1f941f331e7d,
   0x1ce119d913a907490e921d241a5314bd, 0x096112c2059f0b3e167c0ce319c61397, 0x07350e6a1cd419b3137d06e10dc21b84,
   0x17130e3d1c7a18ef11c5039107220e44, 0x1c88190b120d04010802100400130026, 0x004c00980130026004c009801300061b,
   0x0c36186c10c3019d033a06740ce819d0, 0x13bb076d0eda1db41b7316fd0de11bc2, 0x179f0f251e4a1c8f1905121104390872,
   0x10e401d303a6074c0e981d301a7b14ed, 0x09c11382071f0e3e1c7c18e311dd03a1, 0x07420e841d081a0b140d08011002001f,
   0x003e007c00f801f003e007c00f801f00, 0x1e1b1c2d184110990129025204a40948, 0x1290053b0a7614ec09c3138607170e2e,
   0x1c5c18a3115d02a105420a8415080a0b, 0x14160837106e00c7018e031c06380c70, 0x18e011db03ad075a0eb41d681acb158d,
   0x0b0116020c1f183e106700d501aa0354, 0x06a80d501aa0155b0aad155a0aaf155e, 0x0aa7154e0a87150e0a07140e0807100e,
   0x0007000e001c0038007000e001c00380, 0x07000e001c00181b102d004100820104, 0x0208041008201040009b0136026c04d8,
   0x09b0136006db0db61b6c16c30d9d1b3a, 0x166f0cc5198a130f06050c0a18141033, 0x007d00fa01f403e807d00fa01f401e9b,
   0x1d2d1a4114990929125204bf097e12fc, 0x05e30bc6178c0f031e061c1718351071, 0x00f901f203e407c80f901f201e5b1cad,
   0x1941129905290a5214a4095312a60557, 0x0aae155c0aa315460a97152e0a47148e, 0x0907120e0407080e101c00230046008c,
   0x01180230046008c01180031b06360c6c, 0x18d811ab034d069a0d341a6814cb098d, 0x131a062f0c5e18bc116302dd05ba0b74,
   0x16e80dcb1b9617370e751cea19cf1385, 0x07110e221c441893113d026104c20984, 0x1308060b0c16182c1043009d013a0274,
   0x04e809d013a0075b0eb61d6c1ac3159d, 0x0b2116420c9f193e126704d509aa1354, 0x06b30d661acc15830b1d163a0c6f18de,
   0x11a7035506aa0d541aa8154b0a8d151a, 0x0a2f145e08a7114e0287050e0a1c1438, 0x086b10d601b7036e06dc0db81b7016fb,
   0x0ded1bda17af0f451e8a1d0f1a051411, 0x0839107200ff01fe03fc07f80ff01fe0, 0x1fdb1fad1f411e991d291a4914890909,
   0x1212043f087e10fc01e303c6078c0f18, 0x1e301c7b18ed11c1039907320e641cc8, 0x198b130d06010c0218041013003d007a,
   0x00f401e803d007a00f401e801d1b1a2d, 0x144108991132027f04fe09fc13f807eb, 0x0fd61fac1f431e9d1d211a5914a90949,
   0x1292053f0a7e14fc09e313c607970f2e, 0x1e5c1ca3195d12a105590ab215640ad3, 0x15a60b5716ae0d471a8e15070a15142a,
   0x084f109e0127024e049c0938127004fb, 0x09f613ec07c30f861f0c1e031c1d1821, 0x105900a9015202a405480a9015200a5b,
   0x14b6097712ee05c70b8e171c0e231c46]

/-- ecc/gf13.c:1083-2108, part 13 of `gf13_exp`: 64 rows of 8 entries; each number is one row, four hexadecimal digits per
entry, in the order of the source. -/
def expPart13 : List Nat :=
  [0x18971135027104e209c41388070b0e16, 0x1c2c1843109d01210242048409081210, 0x043b087610ec01c30386070c0e181c30,
   0x187b10ed01c1038207040e081c10183b, 0x106d00c10182030406080c101820105b, 0x00ad015a02b405680ad015a00b5b16b6,
   0x0d771aee15c70b95172a0e4f1c9e1927, 0x125504b1096212c405930b26164c0c83, 0x190612170435086a10d401b3036606cc,
   0x0d981b30167b0ced19da13af07450e8a, 0x1d141a33147d08e111c2039f073e0e7c, 0x1cf819eb13cd07810f021e041c13183d,
   0x106100d901b2036406c80d901b20165b, 0x0cad195a12af05450a8a15140a331466, 0x08d711ae0347068e0d1c1a38146b08cd,
   0x119a032f065e0cbc197812eb05cd0b9a, 0x17340e731ce619d713b507710ee21dc4, 0x1b93173d0e611cc2199f132506510ca2,
   0x19441293053d0a7a14f409f313e607d7, 0x0fae1f5c1ea31d5d1aa115590aa91552, 0x0abf157e0ae715ce0b87170e0e071c0e,
   0x180710150031006200c4018803100620, 0x0c401880111b022d045a08b4116802cb, 0x05960b2c16580cab195612b705750aea,
   0x15d40bb317660ed71dae1b4716950d31, 0x1a6214df09a5134a068f0d1e1a3c1463, 0x08dd11ba036f06de0dbc1b7816eb0dcd,
   0x1b9a172f0e451c8a190f120504110822, 0x104400930126024c04980930126004db, 0x09b6136c06c30d861b0c16030c1d183a,
   0x106f00c5018a031406280c5018a0115b, 0x02ad055a0ab415680acb15960b37166e, 0x0cc7198e130706150c2a185410b3017d,
   0x02fa05f40be817d00fbb1f761ef71df5, 0x1bf117f90fe91fd21fbf1f651ed11db9, 0x1b6916c90d891b12163f0c6518ca118f,
   0x0305060a0c141828104b008d011a0234, 0x046808d011a0035b06b60d6c1ad815ab, 0x0b4d169a0d2f1a5e14a7095512aa054f,
   0x0a9e153c0a6314c60997132e06470c8e, 0x191c1223045d08ba117402f305e60bcc, 0x17980f2b1e561cb7197512f105f90bf2,
   0x17e40fd31fa61f571eb51d711af915e9, 0x0bc917920f3f1e7e1ce719d513b10779, 0x0ef21de41bd317bd0f611ec21d9f1b25,
   0x16510cb9197212ff05e50bca17940f33, 0x1e661cd719b5137106f90df21be417d3, 0x0fbd1f7a1eef1dc51b9117390e691cd2,
   0x19bf136506d10da21b4416930d3d1a7a, 0x14ef09c5138a070f0e1e1c3c186310dd, 0x01a1034206840d081a10143b086d10da,
   0x01af035e06bc0d781af015fb0bed17da, 0x0faf1f5e1ea71d551ab115790ae915d2, 0x0bbf177e0ee71dce1b8717150e311c62,
   0x18df11a5035106a20d441a88150b0a0d, 0x141a082f105e00a7014e029c05380a70, 0x14e009db13b607770eee1ddc1ba3175d,
   0x0ea11d421a9f15250a5114a2095f12be, 0x05670ace159c0b2316460c97192e1247, 0x0495092a125404b3096612cc05830b06,
   0x160c0c03180610170035006a00d401a8, 0x035006a00d401a80151b0a2d145a08af, 0x115e02a7054e0a9c15380a6b14d609b7,
   0x136e06c70d8e1b1c16230c5d18ba116f]

/-- ecc/gf13.c:1083-2108, part 14 of `gf13_exp`: 64 rows of 8 entries; each number is one row, four hexadecimal digits per
entry, in the order of the source. -/
def expPart14 : List Nat :=
  [0x02c5058a0b1416280c4b189611370275, 0x04ea09d413a8074b0e961d2c1a43149d, 0x09211242049f093e127c04e309c6138c,
   0x07030e061c0c1803101d002100420084, 0x01080210042008401080011b0236046c, 0x08d811b0037b06f60dec1bd817ab0f4d,
   0x1e9a1d2f1a4514910939127204ff09fe, 0x13fc07e30fc61f8c1f031e1d1c211859, 0x10a90149029205240a481490093b1276,
   0x04f709ee13dc07a30f461e8c1d031a1d, 0x1421085910b2017f02fe05fc0bf817f0, 0x0ffb1ff61ff71ff51ff11ff91fe91fc9,
   0x1f891f091e091c091809100900090012, 0x00240048009001200240048009001200, 0x041b0836106c00c30186030c06180c30,
   0x186010db01ad035a06b40d681ad015bb, 0x0b6d16da0daf1b5e16a70d551aaa154f, 0x0a85150a0a0f141e0827104e0087010e,
   0x021c0438087010e001db03b6076c0ed8, 0x1db01b7b16ed0dc11b82171f0e251c4a, 0x188f11050211042208441088010b0216,
   0x042c085810b0017b02f605ec0bd817b0, 0x0f7b1ef61df71bf517f10ff91ff21fff, 0x1fe51fd11fb91f691ec91d891b091609,
   0x0c091812103f006500ca019403280650, 0x0ca01940129b052d0a5a14b4097312e6, 0x05d70bae175c0ea31d461a9715350a71,
   0x14e209df13be07670ece1d9c1b23165d, 0x0ca11942129f05250a4a149409331266, 0x04d709ae135c06a30d461a8c15030a1d,
   0x143a086f10de01a7034e069c0d381a70, 0x14fb09ed13da07af0f5e1ebc1d631add, 0x15a10b5916b20d7f1afe15e70bd517aa,
   0x0f4f1e9e1d271a5514b1097912f205ff, 0x0bfe17fc0fe31fc61f971f351e711cf9, 0x19e913c907890f121e241c5318bd1161,
   0x02d905b20b6416c80d8b1b1616370c75, 0x18ea11cf0385070a0e141c28184b108d, 0x01010202040408081010003b007600ec,
   0x01d803b007600ec01d801b1b162d0c41, 0x1882111f0225044a08941128024b0496, 0x092c125804ab095612ac05430a86150c,
   0x0a0314060817102e0047008e011c0238, 0x047008e011c0039b07360e6c1cd819ab, 0x134d06810d021a041413083d107a00ef,
   0x01de03bc07780ef01de01bdb17ad0f41, 0x1e821d1f1a25145108b9117202ff05fe, 0x0bfc17f80feb1fd61fb71f751ef11df9,
   0x1be917c90f891f121e3f1c6518d111b9, 0x036906d20da41b48168b0d0d1a1a142f, 0x0845108a010f021e043c087810f001fb,
   0x03f607ec0fd81fb01f7b1eed1dc11b99, 0x17290e491c92193f126504d109a21344, 0x06930d261a4c1483091d123a046f08de,
   0x11bc036306c60d8c1b18162b0c4d189a, 0x112f0245048a09141228044b0896112c, 0x02430486090c1218042b085610ac0143,
   0x0286050c0a181430087b10f601f703ee, 0x07dc0fb81f701efb1ded1bc117990f29, 0x1e521cbf196512d105b90b7216e40dd3,
   0x1ba617570eb51d6a1acf15850b111622, 0x0c5f18be116702d505aa0b5416a80d4b, 0x1a9615370a7514ea09cf139e07270e4e,
   0x1c9c1923125d04a10942128405130a26]

/-- ecc/gf13.c:1083-2108, part 15 of `gf13_exp`: 64 rows of 8 entries; each number is one row, four hexadecimal digits per
entry, in the order of the source. -/
def expPart15 : List Nat :=
  [0x144c088311060217042e085c10b8016b, 0x02d605ac0b5816b00d7b1af615f70bf5, 0x17ea0fcf1f9e1f271e551cb1197912e9,
   0x05c90b9217240e531ca6195712b50571, 0x0ae215c40b9317260e571cae19471295, 0x05310a6214c40993132606570cae195c,
   0x12a3055d0aba15740af315e60bd717ae, 0x0f471e8e1d071a151431087910f201ff, 0x03fe07fc0ff81ff01ffb1fed1fc11f99,
   0x1f291e491c8919091209040908121024, 0x005300a6014c029805300a6014c0099b, 0x133606770cee19dc13a3075d0eba1d74,
   0x1af315fd0be117c20f9f1f3e1e671cd5, 0x19b1137906e90dd21ba417530ebd1d7a, 0x1aef15c50b9117220e5f1cbe196712d5,
   0x05b10b6216c40d931b2616570cb5196a, 0x12cf05850b0a16140c33186610d701b5, 0x036a06d40da81b5016bb0d6d1ada15af,
   0x0b45168a0d0f1a1e1427085510aa014f, 0x029e053c0a7814f009fb13f607f70fee, 0x1fdc1fa31f5d1ea11d591aa915490a89,
   0x15120a3f147e08e711ce0387070e0e1c, 0x1c38186b10cd0181030206040c081810, 0x103b006d00da01b4036806d00da01b40,
   0x169b0d2d1a5a14af0945128a050f0a1e, 0x143c086310c60197032e065c0cb81970, 0x12fb05ed0bda17b40f731ee61dd71bb5,
   0x17710ef91df21bff17e50fd11fa21f5f, 0x1ea51d511ab915690ac915920b3f167e, 0x0ce719ce138707150e2a1c5418b3117d,
   0x02e105c20b8417080e0b1c1618371075, 0x00f101e203c407880f101e201c5b18ad, 0x1141029905320a6414c8098b13160637,
   0x0c6e18dc11a3035d06ba0d741ae815cb, 0x0b8d171a0e2f1c5e18a7115502b10562, 0x0ac415880b0b16160c37186e10c70195,
   0x032a06540ca8195012bb056d0ada15b4, 0x0b7316e60dd71bae17470e951d2a1a4f, 0x148509111222045f08be117c02e305c6,
   0x0b8c17180e2b1c5618b7117502f105e2, 0x0bc417880f0b1e161c37187510f101f9, 0x03f207e40fc81f901f3b1e6d1cc11999,
   0x132906490c921924125304bd097a12f4, 0x05f30be617cc0f831f061e171c351871, 0x10f901e903d207a40f481e901d3b1a6d,
   0x14c109991332067f0cfe19fc13e307dd, 0x0fba1f741ef31dfd1be117d90fa91f52, 0x1ebf1d651ad115b90b6916d20dbf1b7e,
   0x16e70dd51baa174f0e851d0a1a0f1405, 0x08111022005f00be017c02f805f00be0, 0x17c00f9b1f361e771cf519f113f907e9,
   0x0fd21fa41f531ebd1d611ad915a90b49, 0x16920d3f1a7e14e709d513aa074f0e9e, 0x1d3c1a6314dd09a11342069f0d3e1a7c,
   0x14e309dd13ba076f0ede1dbc1b6316dd, 0x0da11b42169f0d251a4a148f0905120a, 0x040f081e103c006300c6018c03180630,
   0x0c6018c0119b032d065a0cb4196812cb, 0x058d0b1a16340c7318e611d703b5076a, 0x0ed41da81b4b168d0d011a02141f0825,
   0x104a008f011e023c047808f011e003db, 0x07b60f6c1ed81dab1b4d16810d191a32, 0x147f08e511ca038f071e0e3c1c7818eb,
   0x11cd038107020e041c08180b100d0001]

/-- ecc/gf13.c:1083-2108 `gf13_exp`, in 16 parts. -/
def expRows : List (List Nat) :=
  [expPart0, expPart1, expPart2, expPart3, expPart4, expPart5, expPart6, expPart7, expPart8, expPart9, expPart10, expPart11, expPart12, expPart13, expPart14, expPart15]

/-- `gf13_exp[i]` (for `i < 8192`). -/
def exp (i : Nat) : Nat := (((expRows.getD (i / 512) []).getD (i / 8 % 64) 0) >>> (16 * (7 - i % 8))) % 65536

/-- ecc/gf13.h:58-61 `gf13_wrap` -/
def wrap (s : Nat) : Nat := if s ≥ gfOrder then s - gfOrder else s

/-- ecc/gf13.h:63-66 `gf13_mul`, with tables -/
def mulT (a b : Nat) : Nat := exp (wrap (log a + log b))
/-- ecc/gf13.h:68-71 `gf13_div`, with tables -/
def divT (a b : Nat) : Nat := exp (wrap (log a + gfOrder - log b))
/-- ecc/gf13.h:73-76 `gf13_divx`, with tables -/
def divxT (a : Nat) : Nat := exp (wrap (log a + gfOrder - 1))
/-- ecc/gf13.h:78-81 `gf13_mulx`, with tables -/
def mulxT (a : Nat) : Nat := exp (wrap (log a + 1))

/-- ecc/gf13.h:42-50 `gf13_mulx`, without tables (the 16-bit shift cannot overflow below 0x8000) -/
def mulxN (a : Nat) : Nat :=
  let r := a <<< 1
  if r &&& 8192 ≠ 0 then r ^^^ 0x201b else r

/-- ecc/gf13.c:26-33: the loop of `gf13_mul`, without tables; `k` rounds left. -/
def mulLoop (a : Nat) : Nat → Nat → Nat → Nat
  | 0, r, _ => r
  | k + 1, r, b =>
    let r := mulxN r
    let r := if b &&& 4096 ≠ 0 then r ^^^ a else r
    mulLoop a k r ((b <<< 1) % 65536)

/-- ecc/gf13.c:21-36 `gf13_mul`, without tables -/
def mulN (a b : Nat) : Nat := mulLoop a 13 0 b

/-- ecc/gf13.c:43-46: the loop of `gf13_div`, without tables; `k` rounds left. -/
def divLoop (b : Nat) : Nat → Nat → Nat
  | 0, r => r
  | k + 1, r => divLoop b k (mulN (mulN r r) b)

/-- ecc/gf13.c:38-50 `gf13_div`, without tables -/
def divN (a b : Nat) : Nat :=
  let r := divLoop b 12 1
  mulN a (mulN r r)

/-- ecc/gf13.h:37-40 `gf13_divx`, without tables -/
def divxN (a : Nat) : Nat := mulN a 0x100d

end Dhara.Gf13
