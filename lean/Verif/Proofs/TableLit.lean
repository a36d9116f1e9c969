import Verif.Proofs.Rng
import Verif.Proofs.Lanes

/-!
# Proofs: the numbers of `StdRng::seed_from_u64(2022)` as literals

315 blocks of the keystream, eight numbers each.
-/

namespace Yasai.Proofs

open Yasai Lanes

/-- Blocks 0 to 34. -/
def blocks0 : List Nat :=
  [0x5d4970244654e9fbc304c742bc6a1db90f97c3cff91218afe651e1d6545c9c9593ef6621323236359dbdf0d230ec7f11d59c65ee99cb378f86564cd8c46e9387,
   0x1851b62533b2e181b4d44d10b4b7aff3278d2a94d7a866927459f7b176aa0a4ca798725cb95b166a094a9a7c7a52ddf3b55fca56f6a399071471cfad8a8cee72,
   0x19d98ef51bb05256a55e7b02ac304057cc08afbe2553924c28635679762fae77cee79932b127ab0f0e250c94b6c8cbb1b05f764fda9c6b86a63dbb95a02b45a0,
   0xc3967b8a0c1fef4e5d9c329b4ca21719b016988f8f6346391b8388901c36e38cf7acc5921a364083f73046b68b1b6d7a06da408f472c8987b6a6fb893757f024,
   0x313e6a4e00917fb337f62fe0da748e7accbac1a4f0d73e131697f3fe6bb4923346efe1ec3a7eed21ce8a5a281c336af4e1c69ec4ab968a4952d2760029bb0f70,
   0x368f1898e4edc9a1d3d080c825be306ed05754e2cfb452817f95f3c8ed09ad75ea68bc7b57a79a997acddfbdb79deacf9f8e090b2ed65d8efd847f911d1b5639,
   0x3a08c3c25065fa68f1f58a83da474f670d5853659bdfbe9f93a927c84c7d2065823ce53dce647630ea45c7982dff2709de0fffac00475b315445648a9e2abe92,
   0xc32945188d520902dd64b463d869147b6632f9db16848387da9de31d299b6275a201fd36bde41213f7a00e2b20bef7fd52a525f0b16ae3cb9611e4b5bd734cf2,
   0x91f43e140ad68c16417b247609406e55acb7cc615a9926cfd1f7b7f83adc8d9600d0d7f9855333785501315b4fa8e508c71a2ad12d3fe50378b0e85ed05e64d8,
   0xf6d19f0f527a0907b7c1255f77db817a6bedf1fc1e48ac059cd4c7340e9709e4882247351b7a92e2819b212b24ada4c5e85161137eeef7111c280e5b514e7346,
   0x3b3893fde220b52ecef31fd30319a94f7baa3b6e848326cb4fab3c5428c3c8260785ae3807a929dc30877b7211cd0c63416437de213497523e78b0810761769a,
   0x11709ed036fb5f53b6b47dd2d709e09ab8e23448060e430360957476574429862f20b89b9a773731bab8ce50d37dd3e432e610edd0e4db2c71b26cce5a1190bc,
   0x0d469eb8152218df9717a2e79965bd94e6d8d8ef422b2aad5472fc18a32352374c8abac97c2fcce18d40652a0db858e0b1a9798894278489b168e52b4d49c2d1,
   0x99a362050c584bad9b5fb3d596a8c1d6c03fab634eca15cc7fd35133b4ade9dc3bce69dbbd41540aa4ab038fdabb2746654146b0ad5504dd046ca4b4c5211d82,
   0x1bcc0f76ae851ce9dc8bbe6ed77c862199fa19830c14bceec09899f75e488a3549305f644ffc2f975c8b6d3303d8ebc0322e5b3afbe28249f1fa83efe87c1698,
   0x4604b2de28030e986ca527cddbb9bcbaabbde4f98eb75e61bfdb0e4ca00e3fca82dbe72e7c39c35528d378fa7e3530d12b2de7153815e38200def0af9357d261,
   0xa7e09dd5569b1a79f27e7ac97963d82b386f5e7b9a33f122bbeb2e063232434759b1bfae909abe15afd9821772fdb569f97cae66fc5c0756ad049c9ce1682d1a,
   0x8dcd70ea1fc1a556bd703ef1c93787065a237ec911adcc7b0f535142d2e09dc6fbb23ed15cbed477c86e610519fb8e126708a752300f617441cbf4abc2f5dbea,
   0x8ee05db351fc9cf04bafbeb2fc8275cb2ab135b337c9e9e8386a27da0d38fe3a2ab714aa735092e8183ab5e44e37d75903670f8b5997e2b9081fa026c8cebd84,
   0x1a30b3d356a6e8965c814db84e7055348ebea181bdf90cd4a61ad9ec04eac0933e64b64f340cc557a4bafeaaac7f7d82842d7db9f7bc68b87244199b63ffac59,
   0xf3740125775399d2889c5ab04211cc67da896e3b2f3382d2c6945e0e69304203565e9912690a5dc4bce0130e835032250a66a8566427e63ef8ecdc34e71b6fa1,
   0xb6bf375ec83a6a2a28262f8385771de04135055db789db6afa0968cc38cd26aff50caeb5b8620c307be4dfe353e89bbaf8eb9936559e6ea901ce0587b8e21363,
   0x4d5b25c5475ff2ab870853af2803c87e88299e153cb4eb4e8f6c4a4dd98896c6bd1a908ba2b2c57cc4dcee6b372f296e093fbdae2179564768d4c1200004d0a2,
   0x46e5356036185f74e1c278ee34bc27bed1a4be1043e8af63d1dee5ff9b49159f86439f0abe3dafa1fcb1bbd0ba984528fafebcbaa421c30ff242c1b3d05ce8a4,
   0x749ee2050d174976d4afeedec4653e6e7c6459afab41942429324ebac41c548bbede21f8ccb69339cd815c456cb0f4ce66c011762184a2240b34e78e8b4e5f89,
   0xbaa8ceae79dd7a561fd05c8d4fbf665fd9223c94b695ec2bcdf541bebd1d279f3a0db621fe6569f0107db007d51ea4670b6d780fcf1518df8346bcb9f044cfd6,
   0x4ba11ec6c9426bac7b1ec777e78dd4f5495ed776835b834cb22bf8d0243124744cb2b753375f47fb359cd975e5b0ac4138c346f567ede9924abc83df597218a0,
   0xd48724fb3c15d57dc40b9f67f133e09d1ef449f6e0660b1a845cd87e6a8d9daa7423644e2f52736c5f59d4152bb2f3d556ebe0049a8ca5b119e780109ba7f035,
   0xa9cb9a2411d1daf0ca1847b45cf925a0384907f4f5cae393e2b03592201e00d323c0158f71d127c0d105af038e5a1a691179a873468014707e523100ae446ec7,
   0x679c5cc0df68a172e7edf0887ee65826d2a1cc3a18fe90f8e5076c7cae2fb40ebc3fbcb2d507027f2ece195851c9f57bd56336f2dfc24fd30118b3160a02b2b1,
   0x0a9ba6f90fb9c714044dc04e5a3723ca2af8afdec8e1cbc337493bad79679b104f4c8d1ac94fc07e7541dd1e3dcd2a089e1fa2eb6f8bd4bf65f82a1187b9f1aa,
   0x4929b1d0ed31ba9267fde3bfca5b02ea04658ea01e4bcedb0cddc82fa8a5da3199359198269721b0d97f07a081db65f4e57a5fb58a0e320a470ad508bc893c21,
   0x636786d01953cffef192cb3f8e38a8de19904b7cee64b16898025c879807cf79bbf440c767050036cd97486132ec6674328baf09bbb5ee3a74fdb94378b402a3,
   0x3c82fb115a01f9e09d843edfbd13bc4e0889c5fe1d9bbbf9b1f30797432958770406e97b7bb44bafdc0f544b3ffd83bba04cb0342890a016966779a44a377f72,
   0x630019299de9255cc17ace82528c76b0b281703ddbb7bd8d536d7b10b7a0cdf8c6cbfbce530236b95bb16d00d1a6ef7bd06871401f41dd87fb5b33d748b246a0]

/-- Blocks 35 to 69. -/
def blocks1 : List Nat :=
  [0xfbc8a3574f38f78d7a4e0d9241cbd64de925dcf7d2ad55801b886645a25241a9c9a1105debb6416ebde8b01d283511450dfc4a990adc09f6895601410518a818,
   0x5bae83a7283969141a41d8ccbe1e98ec43112ac6a3829867718af7ce4b40a106d923ee6efd03e7250fda507d5055ac162e126b52884c8eea5a734b4fff62fdea,
   0x28012c805bfe0c215fbb85ed28aaf437a9e770a20df38381221c685f9ce161bca7be2475a1e04f031e9dfe54c70a3672e76c50fa5e9a83a9ed5996630416b1e0,
   0xf0d993bd70346e08db267a45bd5a346b4fb583ae87bb45bef63394ddeabcf24d3409f976f9b37cf85a1e5bff1defc23a17c5f165227aeb08dcab62157b5514d9,
   0x7bb3ec3e9a16a4edb5d2b393a726155eaa159afe1aa814ce7febdbf8d8803928e36f00bec7b75ede9cbd856aa6e352204673f1880947d8adc99d93d5d214ac11,
   0xf91446dff4b1079410f324f264bbeec02d094c5f63d461717d057f1445c3aa6b6950d371b0d982bb769e14f08c7c2b6d233f89a172e50cef47356fe1529246b0,
   0xa381537c7165ffbb93d9274a15413504f5044419041606bfc92a336291395a6c65f56f21819d12684d022559562115c7c94ffd27b168a522b24cfc986988b3c9,
   0xbdd3f5a46584ce746a27404c0eed3cd65e2885cfcbdb51ac888794451d5f517d34aef844fd0d448f770e0ffdf2db408068a85b0bd98619e189e8faac6d62fbf6,
   0xd9218637f7f2fd62ab2795153e9f55a37a5e50f41d95a048a7474e89b7c0fcaa88f88d44502d4b06df738ca313984267f2b06fc11791d52481dfa6c61964813e,
   0x1feada8e09264e99aef862c01900e651e56abea9b8cf8d219642318e2cb6a06723f7853888f2afbd992529033d960c31bfda97db3be6c9dbbd334e901958f594,
   0x295ffde645406e5674db3c175adb60cfe6186413a6fd090cd16414006ed95a749f50dd7fb969dab51430e9bdbaa0238060467e5805ee8ef61886f9900d53c363,
   0xe90822c3028bb93529d68fd8a55e5ec11a086284d9a8d70933a6624137013101ec73310476f129dca41c755d327d5d63289a391ed53276e8c6225d38ef06b48b,
   0x712a41a97134776ed860dfe7803d9e3f8c46d50065922e217b23355d6d9f12f3d3a26f79d1b8df0c412ca8046c8359165f05f5377923933fd5f7dc44786c991d,
   0x3be7b027637735f3a3bf184d9b67369742533782231abc1105c7b4d5839df5a8e357c9a5eed802bd351bdced9ce00c67ddce027b6ee79585ae0ea6dbcf3cf64d,
   0x1950100b0c887b15f5fe862e0051cfbd0a2651b9e0e937c82af436bf37792e25652da184fa4e59d04e34cfd885f77048716e6ffc9c9c97e9753d51f000d0ba64,
   0xdbb55a2126bb3cb39d3b67ac7c20f5b87fff43d40cf42d508ab5d9c0a68132f79f8fde4454d7b5c5919366b44dd92ce1d2c95ca5320124aba68668f09893cc25,
   0xbf0949b0a065302b86a683e9bb337c98c1d8c1b61ad6b5c4dc2341dc8798ec3cba0ce946be61ede90f818ac80ce2449f1f184370a164b21ccf1fa7f02064d4ac,
   0xe56b557869e90d25ddcc3a7156fe4c04faa5138eeab9690cfc1c46f1cf5dd71c26632a3fed0b4767eee6b3b6a5e8696c16d9213569539aaab2f3471211b9989d,
   0xd6ec3575c1ac6127426b4270585bc99dae0b53a3431cfe3397d1a5f7b26cc993ed335e69ed2bb23ec563219d877fae757fd5b7a8deb27b51678436e27953f6f5,
   0x6b1dbdbc92acd1c3d4e844756a33b79c5e81e883edf72d5d34fce0c0cf748a6800092e80bf25ce86e0a30f075ba965b4b3a9ffe4987358aeb80b043d5e8ea426,
   0x4fb39f1399c5ed9b370c5ec7519c8964ef505a09220d33ce68c0f52ef3e611f08d65ebbb5ba062ca6375341d7ae886490ab644d01c1810b41ec5cb2777327d14,
   0x2c3bf0226d3d0c83ff3f9fd46f27354ef33067becbc15fd5c88941575ea84c1a2e3ba6998c94c1016513575898ca34a7d1f5d943b9736a00dbad046d8f1247f7,
   0xba9b48bec2f05cbd2bd15c62b03c7b0fbe350e69fa527fde3c0b55946426ca8dd0e328897903e9a01c807f2e30eb162cde2b89870e84d7bed7e75f98c2ae9997,
   0x8d5b39ec3e74116e8ec6678c983f98ede0818ecb5135ec2b3159987390aeebee98bd906069370697c2cd17a7367178ba528974a96cb27a11a3ca51d4321e4b3b,
   0xc8ea2a6ba3084d4ab412da0cdb54756cd8e3222afb1a51e59152f2562cdf27e0ba8fb09e6ac8ab2142a68a6279c25a94a456237f51234134f57578ba7998d2ce,
   0x0b3c5c869384f8e4c2f0ed789f5f72974357ca645c3750b82b03fb653ec487730d646a9547a68273e3ad7d1397c8152ade9efd4b27a0f695ffcdd7f035f692ed,
   0x77769e6496858180edac2ff6f4fc98c7458d802d5fdf69d26c04dfbbfb1f1d0df0368bf9fa8e315b9de25237b38566971b47b12a4d65e54039725882ca5b6b0a,
   0xbf2522a125c8014a592edbb40398b02b2d5e30ab25ce93e64634e17f8e8738cb8bbd5736b712dc9f70c8f55699af17a0dc0e331405506999202e2f82bcb63425,
   0xa1b4cf4f7b599cc97a39c35e1f50a0293663e7827e18be3d8ec05bf6818872644508aac6e5b445f592be1c70522ac7716c75ae1a0da6dcdc398ac7d7b7fd22d4,
   0x520a4983d1c5208bcf3d618c4b13f0a8962427056e18ac4fae15949b46fcb7ee4625858543939aa9b15e4de26f46532964dbe14eb3d4ff089f77afbd43d17735,
   0x2a6dc5dabd9444646176e41c3b290140483018ebef67e775c97abb7f9cd8822aca474496715ccfecedc3910ec5406ae9bb95107e7011059b766bd702755d9851,
   0x1f4f035d5b76fbe25ce08c437ed3da6bc565f2578b9ed5c480714278cb9e225662d155781d01afd07c28950d6612cdbf423e759feaeb34d92cdda6312e0a6f89,
   0xd08725d063bf207566ef7f87348212c791773757ca3cc965ce11aa7227916696daa93851904a594cec0aef99de9611f1b6407498bcacad290612fe601ee18ac3,
   0xe0752b06afd2a8974347e7ed8c7ba1e51e9b9ba7c2c2307036c0eb8a0494ee0ead1e683314b8ebcdeea147f65490e711b195362135c7b2f6de0cd34d8ba07f04,
   0x1f0bd9bab4011181a1799a0fc49afe10a6b430e06f896885aa6ed816057a4b036fa752a36193fd828ada5edd19992b9894fe478f0a3ab2b846a5f334ca71b544]

/-- Blocks 70 to 104. -/
def blocks2 : List Nat :=
  [0x78f32db693798979523102ee516282b6eba717799fab994d32b39c8407b57c4f62e79a0d7c403e103cc3b19109dd1f989f2907a20a7affe41e0d9d1c309f0cb8,
   0xff0f3938fc1fef1c5d05e15e5773202afb20284114eec16ad351e2e17dc42375deaeb1618104d45675a6c7c44ad6445c2e96cb21d099ceb86eb4f054c2cadeca,
   0xdd685e41e0543afd11a898860b61e5b5da062bdb07ebe6f74e5df58cfe14dddb9127393fe304758942296fb07c359d8ef4fd720a5b51b007e3416f5656acbb60,
   0x8fa70292930e9b2657ddf43b9dca05cf891f3edba0935c778d2f3016bf8d29573f0b05823144218abeadbbf4afb4e2fa80d9702b3efc9e879b13f1d3b7517ea7,
   0x53548690194c3305c1ceef54ce5fc6f62056109a31be41227f5cda671381cc031458db16d28f1cd3e5ab78fb2c1a8f874ca6f85a390126da8b19bb2c33f45539,
   0xedd07347a7a448f969f1f79fd3f937b71d31297169d57b51417612af0245500b0a80c1d8aba16bbf49d897d9d2cdf9108ba5a1cf701c500e28c0943d55cf3b9d,
   0x48c04e49eb17f3e73e10fc84ac102ffda13dc0e203398218a972f4b607dc73bfa6d32a900a307a4ee433b6bc2670243a7838529272bfbf22bdea4eb844f07c95,
   0x1fef56b4885426f6c8ea9dfd573156de037ddf95be1b1f69becc46343b1b62ab5de63a764020562d342114b743d29027b97b7365e689c92f726e06c20393fd32,
   0xd0ae24b61912e8df2f3332c1e97063272ce197d82ff621df4f739aa22c36c0a7e452c7a00b175588ad2d6fa686e78505a4fb448b89316414651d86fbecccb210,
   0xd42b77215f85a875de3186275bc0c3fba891ef3bc6da6f0c548eb7b54ba315751192f390864bb026b5fd6a912aadd1ae4cb17573b938279cdb1500ea66b5d478,
   0x5ff32864ca7edc8788e8a67660e6fd47b325b866aae93a234d0c503c15b68ddfebe3506cc4fbc727cdd3d54622efeb9f6e6742f82c63896b0bc538451998dfee,
   0xe8ec7eeb13b21435f00fe7892e919749437ed48a9065251a7d6b35ecb560eacea3eeadee082e0c7f0197c003ff28f2aa5a955abb1530a9cf66da129e51092fbc,
   0x2f03c98149e892c7e772cd231cc3dc62ee202a2d579a8579f9916c17d57167edf3c12f8ea6214cabd1bc93893b6d1d75657e300e3a5d4dc92409bd1d52306039,
   0xfe050d0371de3f7d83131dcdedc5142093ddb2c8925a91b7410f9c3fbf9db373a2f85abf5da33c49c23039770c9232bb6b6e28736f6674fd4bf53c523ccc59b6,
   0xb56f9d07b51842354a997daf5190d146f8615272187eec9a1fb7e70f8b7b2e847b8decae967e6495a38eb7a57cb5b6ce1da5bd27d1df6ebd1cab5c606c61f9a6,
   0x987401a2e82d372b4c25ed0be84f45297fdaeec1346ffa7339d532b9975b62335066796b6f4157cf75421d91d3f970c9982c5620b82ccaad9faefc3435d0aee7,
   0x86d24d1c4e2bbf9773d60ded561391d6c8c19c7117ec2687a39d8db3539a601bbd3af2aa09b103ec6a0bb830d632eb2e25eac478a2381dd76e94570843c7f476,
   0x34f60bb790cf9884d64ee921ec3e697219e4e5332e9fc35892186e6a136b537d1c4a0d97416390f77a671d8bea855200ef19f4f9c35b6c049825dda1d3cccbce,
   0xbb64df46cc61316d2801de23036178dae079cb553899b2d7ab28a470d5501582b9502f98051159a76a747dde5469495688cda58c964d16e0cae82d3ae4e5112a,
   0x5f42dc812c1d9a6d3430d3f37a96309ca95e85a448a0ae0d1f825ade3fc90a9c5ad35441f978dfd4cc7b1318de7cb54b7136717b876bef49a13688feb4a20d0a,
   0x574490ed456afe338377dabd47d3ff9dda2d071a27cbb023751b50546481caa6bba6e470ebab37b73ce745f033892158d0807a346b194a53967b39e7e0d36e81,
   0xddece4a7bec8cc4e58728ad4562103b6bf2afd38fd3a560ce0f7294ff0734375c88f0fffcbd34a73e7b942099d90e16361889531587e79ad06be5d3c401fe4df,
   0x4e5442ff3e44894aca2044aecba73889126f21070486ceb3d4e80407a0d9c0d3745ad1a23f978e7f08abc9ad0ff7dd3d7070f7d75d8b2803df18b11ba98af6db,
   0x681a0d2aa6d7c6989489c1a762b294d85e63196fb3da19e5b3cc7746af3aa15689fd4087ff3b142c29d1e0c05ab8a4083ef87835cb4a763dc3dfb0bbd0ecd058,
   0xcb3ba366c6d70ff3dcddd9b4355b1a22702bb4ec28fe13c9459f24f26f84e5a0c9b867951d9db658fc8e00e24f6180ce4c72327ed6b84096b5b8bf063f4f224e,
   0xe9d40fa2f4fead094108cd66cf75c44e572961b1c09ee62ac7d284d51eb6d17464364b91cacbdbdb42d657c6808d73505d607f961bcdbf7d35ae3e79ab2cf8f3,
   0xc4bff6bf195d40aa7b747b62e02d2b07d02d724719fe2bf36247179e46ab8d4d3c8e068301f45cf6c334d84da69d3a096fe9038de6f765ae8ef0fdd36179f247,
   0x2e033e82455c4fd91c4b14bb3b1f70862a9dcfcda81ca3442f4b158710c51741bd7956703215ae2a2a0c559b382ce83b10d54390a64266e55fa6095cd195cf3f,
   0x3c756c5ac63c1fead9f7cfbf186cb130470500d640f5260687a5c270106917788ebb806d18f568618ff3b71f0b135766d5e35187b83f07fc802d14315286cde5,
   0x12e7b19ca4ef518de3d540d1e4bd27596c6757ed9e948731e6288ee926011f3d8a0177996d9ae87ee83db428c279aaea504fd0d545768caa3fd5e7180b32c039,
   0x9c07f20020921faeeeeedb778395b395d0e444635a46c60fa1139ef63c330aee850c96d3897654a278e3ee885b5998bbbbeacedc7cd65b18579967cc52eadcd3,
   0x4495a6c9ff3609cfba173488b615d8b9c695d8ac8418c48778503bd800a34de13714da1c4d482edd5dd96e6bbbe52537265fecf17a99309937da117f78083aaf,
   0xdcb374b706bb01a8c5e708a7869ef033839465f33b2e406f7f6f871246131dd58ac16a992619a3877822ca4b54c3187938dd574d971ebd88bf649b75c93f75e8,
   0x44081826d7ec9a54275f4148fec8b482f0f309ec87262a9fd48a9f509cf33984003e9fde64b994a33a1cbbe29fa9f4de16f9fffd0724b07128b94185e078e928,
   0x92dd2b8554de5d3794cbc9d8b7860311bc1edc75ec2eec5261dc5d75a40da4140c2937b2c24f107496ceab6134b3ff6c47babc46be9eab603827c13c4e881b69]

/-- Blocks 105 to 139. -/
def blocks3 : List Nat :=
  [0xa15f01bffd9f84a0d60fe95bc95d8c04bba8d723dad66cc47e1fb06c3f74b021758f8f8e4c9b00c337fd03927058de9ed0fd25c98d9c7fd1d18c03532d3d3bb7,
   0x2e83b520fe54c65efda93a15851398bad26b3ca163758b3a3862793c64c574ba8dd327ab0b93d5170c39738c5879757b3dd2331e938473752d1e1f108b45cb69,
   0xe7ec08d48a5a9a0d37a06aa8c598afa040a8b79cbd3e5148bcc7f1e426d3021d3d5d0ec1b3ab65d20be33fe7e0cbaa8b76c50d078c0191505f7596b9d43e618d,
   0x21a8a1a32115a2bb45f343086b57b6ac0b2ff4d53da0d9b7a3ab63e65594398e0632dc41869ad8800010ff481c0c185bc8e6556880588c3db3def0aa7161718c,
   0x0b38fe1beea4f0285f5674b40a9e0cdc16d7140f2379f4bfce95ad9be800b70ee1c29f56c628a0d26117496122f0e9e4f4fe56cc2ec80099442027bfa7fb9613,
   0x94a0f23a38a4969899df6ebcba5a6edeb996ab4ad9c6e40b89f8c68ebcc68297997097c63481f972d3eea71c3f8341863df916b865d7f90abfb2aa9350161fab,
   0x25c314a7c51a907c6e400b2874833315db4bcbbc12f28739f2ae86a30f4e6a38cad909509a1e8979f7f1481e8fecef7960c58713b8341130c52aacb27f01dcb9,
   0xe32f37fbcfa50495741e6cb5ae42e2fe2575fc098f31ee2afd347b6f179188c2f9d7a2fc23db3828142e7d610bdcc3af9928c05d2aa4cf5a1a0ee6e7286753cd,
   0x7de3256dfff9a122dbf6cb07eaf7b704368511dfe01fcf6a2702fcd9ebad9821a392b89953cc9aebed4b6b20dfd90c0ae6e5ecf27756ee1e24bc805e834b8c1b,
   0xaa0ad5c62d052701c5b9da26c29f45a90de09f6b288355637b52a4c13f4e06e2d91bcebb9cf0c6700f67b1b92dc7fc426d025b7e6f0d1157834aab8bca890888,
   0xb827e2c01dcb14587301bbc13dcdc09a60003671b897fe823b6baceaaebe7a75a57ac68b456fffa6efd9dd599a75b87c917c8ca0cd382302df0e44c3ea9b9a0b,
   0xa2514bf4d022295590c0b213ef649e29ccbd6f4c9d0a6417f6e638920160dec785b94b1f20cc1d9b840f4acbb271a425807345cd783f0c7bdb572ac956a88119,
   0x3a64e561048c3476f61917662ce24bf09ebbea62e1957611afe04495908b78b9db7cb0297113fd126299f706edb71617271b336fc2ec902de894818c9ef99e6b,
   0xb8264736737763b82ad3e2d7484798157954fd88fd8a5e069161a3c53fd62a80a6c5338ae58d5ec7a2ff0c6f3e31a981f582bf7d5f41a3f99e744211a19440cf,
   0x8fd17bab3913a54780644a814dcff0302380b828468e5811bd19e0064d94c543e67ab6b625d52f465f50b348e09624ad4d3edc9f2ecfe752a450870a13615cdd,
   0x90c79f1f7e64fd80ceedbc927aa44895c220d9d321195442409037c133529cf48f9827ad97e438dd240bd6f7d0691e898397accc83005900b0412ddb4cebcc38,
   0x15f41ea93834cc025403b3e08d5277dff14935b04a4786ac7ae8e1da7cb2a335a5953520c00a64ac4834ea0e2c773c13440e2b16aa2e1bd86ec8d4f01e417d0c,
   0xf8a117a832dfbf694ecdaa400fa00709dc13737e9ed0c6e1068e1035d2188ab278e1389637ecc7065c6b24c251f73361dd4c0a004ea74f01816d99b0da578d42,
   0x33ab3633ee014826e228a9e03a703de471703d0826970871cb44db78c4d07dea5fdce2d8dbec668170489dccb0a8c57f21112a308d165374bc9f069bfff4c31d,
   0xa30d02f0d49cb21bf524554e9e32888315594eb610f880a0b81835b2c9529c2045dca58667a781c8d0f9895b88e812939c3517210f3ced50be9af1a79063d6b8,
   0x73459042393f5595e78d3a06358d13762b2cbcf773e36df697626b44537e2155952a0c225345d2488a5def0eaa7920019d5e49ade2a53e537d837410b5a5bf58,
   0xf70d53d0488169f281b7f199f595c8703d9c6566d491356521d87092ca9cb95b0dcdf0b7548ce33ed7249840635bf584873d8c9f4646e2b283329bb1959b37da,
   0xf3a5868deff0fe2746a4264aab35e06ff1d7f2c1ad942e2c00a58084ee94f0f45ba7027afb95a80cce44977fbc166b62cd0fa688bea2604fe25cc525378dde69,
   0x33da92db15fa49b5aac11a07ab31ebb26ce1fe9ae24839bee23bfe5facd35fa8c196ae6d7303fadf3d648cb4526039265d6cfdbfbbdb116387d0ba97f3c8c117,
   0x4e4df8a8bde1ec3e4c7908a846aa6631a5ce0f8bd2b34ad506a95d4ec949d95e1650224f961977eda7daccba6a3b550f3803d1c47d20d62c9fb2831ab214d061,
   0x88451e8d710a181de1f2d6fda60e0a1d00bcd7f3b9fdf8799ffdbda33ac5ae4583a6643569690651ae039e6c4e85434f82c790c88b0e4bc9c67df32046f1d0f4,
   0x9415d0d3386fdfb18379c7839d8420c240505352df55c569349c5dd82bb8979d4f4b5fd405e41cea2d91dc0e48a35ddb08a87af44376276fca2f91cf478bc41c,
   0x5ba02793fc9389c2ce50b94c666edfe9bb4edea68a4cffd590bb7e279e0fd632011bea2357084961fc5208f9891586be23a00833a3b7b876bc1acd4545741cd9,
   0xdeb864e1b52e56d9feb589ddcb159b1791bd0c4cbeea0a31b5f77d35580290fa75a9e64c34d1916ac2fb9e461421db9978b145d905bb17581b483efaf9c7660a,
   0x2f547253f6411ecab467433a440c8dee4ddb022b5621a4bd1cad1618f53f17e6759cec7aa3db3c6f5a29146d032075d06dc43ec38954f683a5cf90ea5021a7ab,
   0x80a5d3577b195b2cc8184b0b0ef21915e3e99782f0958e19805d4ce40d0e6b3112cac91ee83807fa17e1d0498b1d9008f8c60ea3d3311281cb1744af89aa0e3a,
   0xa2368d5861b48dd34134ec52a67139d45e69968fa2ffb335c2d255ae9547ade0ea8edfc6f0546644ac79939094579c21a783162d5454b22595ae0eeedd3576dd,
   0xd50dfc15dea2b30d6fefcfb0dc516ff2c1d5516535f3464d0acac816c118b6bba912d35f1740f974e019e0b806cd8cbb463ea92ecf4b9f4c1ba7d27e186f0c81,
   0x699c1773aaf7bb789ed70707401046ccc3af6634040e106f784d5e79f72463fee39dfd490e25fb2e9ef540d196b7bbf903fb9e820c34548c0f3a26c01cd649ce,
   0x92f621039f849e8ab5c94f99389a5311fff40031604697b43f0ac0cd87059032592a9ebe728f14616c8dd016fc6341f59f358ae7c174b45d809c2177656ea19d]

/-- Blocks 140 to 174. -/
def blocks4 : List Nat :=
  [0xf9ae365b82a9fd94c04c20694526d5eb46c5baf26b780754e7658989e637bf0918aa2ec9138cd1d03dd430e3f920d665b0fd6620d75ad2c2bf5bdbc93deb5c31,
   0x6d9e09825349cc2476418ccb67a1a71d0e20f079bf26126e8595e1eadf631581ac77a6d2c9942bd73a93e311baf9122f88da9ffab334ac243ca698d9368149d0,
   0xdb405b9c2c39fe9cb1c94ff7037152984feb78e2e2ee03aa3e85240d1d9d71dbbc7285099d9743bffe92e321fe08307f22758df57b5a4ccaa2ebf9bcfde776e8,
   0xf1439872dd0fe669d1b02bbbcbd148346f9f973322ce43699f44dde3b806aeb69d4c8a3609fbcf4679b59d7b1236334ccae9c5f098f213ed19d7c827fbffef95,
   0x2b03a5e32a61600313175c5f4b58f5c79a3ac6f335a32e323a8356ce6a63c2a2d1a4a37deca1281f73543dd2e3ff1daf960f24536cb86caaa2badf262fd0d4ac,
   0x99faa976b1388dc9269e297c3341b14fbca6f821d273d9a389af2e76be50d869a81ee9c4dbd5e670e8568a00b6f40962878188a2a7e021fc844aa47c11017879,
   0xadb18cc3feefa165676f2e71f1e17b1c0b2e856221c1f0401f8c291a7be3edb74eeda88d6c9bca0b76060bb3e4a0caaf60cc2a4e0294dbee06b19c457021c184,
   0x9ac313c8f5a917da25d684c0f417c837ae8aa12db599cea3db6885e5dcf6efdd369ca77352195838f305aa9f3b61157b893a86e81f52d256b431ecbc17182fa8,
   0xb08d89172eb6b87d8ac116c07034aa891bcc54a4f8ba1e32ba7314a31b114252b9357e5daa5f04741e658699992e936a24cd7e9a020f3cd80c900d3d9f653aa6,
   0x73cc4b082183fa413eb9eafc9bbc9506625c2e07f6430863af4f4ec87e63c71cc2d3774271325c4db6821e9c8f5ae6a1258cd4f2a2bd91a74212ebc6ec70cc06,
   0xe617c0a809d9f45af9d763916734b119c180985e50985e3b0855b2846d8cbf9b7a995279dcc96badd8128824393e7f5f1ecb99ce0406178254ee1777dd7760a5,
   0xf18f22e3516b24b868e369097cd500494cfbd54e899fbb832afb5287f95e0e906c912e1614de93035fd0eab4c883143d8049c644a7c4d1df333da572ba8c2045,
   0xded27181a82f116dacbea1e78d892e6497e1323b111b8ecf440727957c1a138c796938a4da736688ff9f4de6afe7c24344ee3fa9d01b2d4627f0b6d2557fc857,
   0x3bd42fbdc0d3c344cc855d076a597c725f9c3c1ccf7813585a124c051d702de7935592d8688940254b098011a9b26e5705e2e852f770e0de3762c7aefe68edc1,
   0x43a253a54a46db2f5baf70744e1e65a7b5df10f563f5dfb5f9eff95728ba96a9af36e6e56df80f0a1d31ad3814c664f0af67705847a7dabb536c3899ec5aa76f,
   0x203744f1dcb6ce4675ff85b3161536bf0396ef8eaee192c0c9ef32998ac37fd7d28f4ff9f4225d1b40bcce9cbb5f4c4fd28510294cf58f689081dfd873d9b5a8,
   0x0e4c4dff1d0546ec48a3ea6e46679584ebbdfd4a0dee152dedc6b063a6a0cdba1ab3b15a8316b12dc6024fa5cb7fed0edc01f3e655be9c279de5f16b901dd85d,
   0xc4acd8376d801f9d4d893e2bd0f4c7ed22012f9c02a731c36f22bd2df4ac86245b5c6302e8ca6f216718e32cab4cebd04d5083c044b6804deb02eec3b0104f99,
   0x4fa296f70707b38ac1c3ccb6afcc4b56176f0dbaba1ff3679e43b3774dbfc5ed4c85bb4c774721104c65306f08af14af9de5db0484666e4165e0d64d26fd827f,
   0xf6eefcbe6301c6fd963a38078af33d552f0c058b4448bd639a1dc65e0c5767b89010edcdf9ad85a638717f645cd9432ceacadb8142ef9c09b2ad2a494da2e57d,
   0x884ae1a4b687dc97b8c7c7d6a4bce245428cbc77c29538f5260bb586cbb949db69dbec23e0f9259828c3c8f4a3bf432a9020715ff912ef65311a192af9419ca6,
   0x69f5ae001275f8d77b3b53d8c6ca304117502fa60ff921803d28e3d053d47f6894485f4b70857e983398123456a983e9c6546816a297903dd3f7be679e97b7b5,
   0x7f113af6877504a965544df81c8b934230189a6c8cb23ca7b7fec031789df41b9dee41b744a72534a2670bde1d40636c02a90edf9515c227ccd26e6cf2de108f,
   0x775f6c02149d1a88e6fb6fed9f367fa0495633c5663908808d2fcd1e13fbcf6f7e05a1dea6350e17432e36ae89a90866a781a6ecac2d0afdc8df71aafb592637,
   0xfcdc958f6a95a849e99cf4ba3270df798b1d2e33490d9feb4b91f4f4c3dba50a6bb3391ca5acc5de172631d7ca9c6bf4fb189d862bfa907e6dcf182b711ff848,
   0x5e8debf0f4f5570fe33da3c1478ac19863c7808400c212504a99a7fde7b26057065f74f2dca3190bba57637f0a57a4febea109e6ce2448f9074a029686c51a7f,
   0x49c6cd7d7963117afb2bb0078646075a087bfd919920e660d38bfd7f573713a2d44bcda5cd64b34adbef75d207b38d471a18e689a69fdc8cf052227d178d753a,
   0x3c54c9f30c3ad2dbde0a001b026da47ed831441ee727030cebed461d8fbe4c82ac748896bf915e73bbc7c85228bc927dbf5449388307c2f990c7a3bd38d3cb26,
   0x6753f9a3b19bd9f3e6daa1ae28fd6edfd43322afebe5e0dde62b998634bcb0cbcc3c8e2f7730fe64df42e44d7a2825cf512bcb2ccf2d53f7be91af6c5b14baeb,
   0xfe2ce7371cd612ed3b0622869276ea8744f93f5214c129df6051bb5a4abf234a24f967f855a062f6647a8a38897669a866c08dd9eb20075bc60d67d60949dfa0,
   0x6ad10989c8f9f1d04f569743fc7fbb686c9fbe410abce8aec49a282b86ce3c3b6e262538d4f08ef32f6e3784fa0a7ecc9bd771edfcb92c945572f64334bbf7c9,
   0xee052e6c6f762321c396470f2b70e55bf7c1e02d58c4e1f4b667fc60180106ce2e650401ac1f4b9086a1d6ee407a7becbf633532a88c2ed616886129de0d0df5,
   0xc16996863e8dc3393261f8fc7047ed640dae71bc991f1347da9536a138fbb805f8c67121437b843406927b84ce3222cb144df3d38829dfc9905f9e5e376b2328,
   0x095454209316ff1b37a4b2ea60dfd88cff20873ae104bc811ccd880f9768c3f7ec63d894bbaeec46bfc26542e5bf7b61eac78b875d6ba490f887e02561c6d68c,
   0xd51f809c9ffe182c720df32fee1f9132fc08f54ddd0f45543695213290d22eff0513a6b0faa8834545a07c29128aad78498b60c2f17586aac12410ebd7d1915d]

/-- Blocks 175 to 209. -/
def blocks5 : List Nat :=
  [0x6c9ef031c3a82a48a29c27f729d97eea65efc773b58f58e0e42a319a3a1dff09cc2db22cc6974e3b246c08ebd6da4f0069e57e7ce0a44a32bb316e3c992de0e0,
   0xdbcda6611bb3c7a4e71e2521504819bfacea1e5608e31b2d11722815a74c7810c34b3bde57cd5e6022877d6d4012a89fb5d4fe9777648e5e8c3d2bb077be9170,
   0x348c07e1acbbcce04a5cf98d3c02f09623e72a2b4ae2aabdf1f8486eb17d80d9a8e22a75cb9ba44bb906213b0b4d6182119ed6d428bdac9a741d97cdb33d5239,
   0x8cad3328781819ec4f1185c82c59326a9d5ce633901f1eecdf673ff7b0208fff6c94d63824c0b2bf1ff169cd597418109a22cb855a34ef81de8cb37b7a3df842,
   0xe16e27ca7cab1eb1d8d42c7f835ecba341c355417d39f7119aaa7f9a03bf3efa163a78a3882f54b765d90b2b3e3d994b2e02e22121d31bea9bf54b4e430c52b8,
   0xcf762a957205ff51e8a118402298f3cbeccd1a5b4ad0568111582102f0e181b3e8f99fac05673ae9c7cb2022447cae2062928a27bca7d34af1d2d68768afa2e1,
   0x964a9e43110efeb8533c6a0793f330dbf4f3ca647ab3094286cba694ba8d1b0c6436f40777f7f27f193d7cda9318659c06e080f4959c9d5b0d9f16ff4adb29d5,
   0xea397c7fe773c88b1bc51de062c8776c8ee1986028eb256ad0f0c079151dddbec6f9547eb18fa213b94413f0632a52ba92753da4d19b1ab51f6d2da9454caa47,
   0x48614cec9d5e78afc8507e0fb0967105d39db9e42fc0212ab9461eb3992695e82edb51ed84c44c5b186c07e14c36e6085881237afc60ecec5ec606ffa2a0602d,
   0x50d343f12eb45afb46b04aacd9b2d5dd35e3d02dec8bbaad87541abf7c8e779f00ad022f76ae09e204812c1d50557a3d327224b0db6937583d325511554de8bb,
   0x3074b57a7f41f1f2575f5869737dc3322f49fe78c6b5d30b31bc09aeba122b6f1bf887aa8d84d72e5b07b020fb8bbbf3b27353e1635d6bd0dcf7525bff99e620,
   0xd3c80a8638764714ebf2318f6c539d616cb6e3e2612a98669f58c5e4199cac4d9552a4af11dd81ce199dfc2edd94e859acb25b11776dab036eb4b2140dbf50f5,
   0x3025229a95e1c291375a44eefd1531d0a76e2702080d7e3d6da5f737c188cee1b0824e470dbb473547406ccef50dd57ef3dec64e3ee0c3924a743c1da255c671,
   0x324dd171b725acd33af7ae033ecd8a0542511221dd3bbe3ebd6b2fe5ca04ff69aedad54ce6de84d97c5eb124b8d80f02eaa7f8f3a59482e019ea8ffa76fc421d,
   0x09d2329e0b7a60b18e1fc105e57e0e2e3dfc7f0605664f45eb0c668366dbb804bdee1541121fd2747e7f795b333b41bf6703e5a5c34ae2289e3561323f433d74,
   0x5d375fbeb30c806f88748aa66fb43dca4d7e47b43d3e3772ec97b9f0631ad3d76e6792d27dadc23b4e40cbe1257788c6d259cd7f64f9c46d5bd9b97b80f12554,
   0x7d0e90503889a6a13b3336f7429a00712cce5c55d96e96d5bcf1f4e919955aed4d593fd6c68fc181f8e2e075757af8ae046ae7f48fc58979b812215f322e8149,
   0xf8af4422cb6802365d8a7ff4fd0c7810660fcf51e6e199875b41d76c76db73944da34194a1cd080fd37e950e4a0f3fe64081cd7f8e3fa2bc964ea2b9d50e81e2,
   0x3a2f554bc1d80bb39d9ee6e62307ecb3310b5d5b53c1bd078df875fe3124f70db0cdbeac2b040a380fc39c78742b0c8be01013b094c2bb0f2d791a40d262b925,
   0x37365e7a97bf0c2ba8719fade225b9b1a9a10dfe4f1266ed4b125be56c6387c1bdc5351b108e8278a2232a9f56bc05762cd228f8303089c8dd7447839ffd25ea,
   0xe865d1cedb84cb5116d632e9e02f8c3a789dc0943cb5bace0d56db5c94ac58999fb42e828cc8da6c92102d5a281bec882d82088e61c08d989e41c861b9952b6f,
   0x7f30c33b0928e28c5d131813087a1c79df25c609181cfd8938abfed2819972b97fc65ad97810dc3f40518d7a4a921081e6ed761bec3adf0df6f87308570208d3,
   0x42397f1f07364d549cee32ebd6d8880e51ea8872a52e6a245336762fa5e25a1478ab26c0803d3c31b7dfe5de12f6f3ba4a279c7d5bcead49609f5c5f4d098232,
   0xe420b3d95c320f8bb0e1a9f0c87f7320595a5e92d5ac8d3f00a4c31e49efc2ad97377a3b8a339127bc95ecd7c28721191c3f51057e2ea3ea1a1d26d03387d9c6,
   0x17d013411eac8e490b6b33862a7a47f72b338977f1894f68508207720e49c6c857e5e5267513003ba007fef55b3ae7892a47403bf8ce6aad4c18acbe69f19c63,
   0xadbaa938f513934d706d1912778035203962232228f36be9ebf201590b7b0342feeffd3f24c5f3d35e89f2e4a4fdad0d0c19e738c022993e9189e318387f2d84,
   0x69c796de3d32aac93c8f8c36c3072084741034ca7e83611d030251836fe70f6e1333394375006b13fba5e0d7d5f1b1f088b57229714e146e74b668cce4659a5f,
   0x0836979ef6d8cdd3e22162b886c6a8205d2615ce0c0c0a80808d0036a933b085d47a91b7a5a1e6ab442f23eb8bea761ed4bf4cd4a4911293ede3649eb26d2712,
   0xdde16b0e5018cc2667e2fc14b73254cc1710cf99e8af3a1ff0f8e4ba82c93038edbcf966c1fb053ab35a6f206df7432f3b5416245b39ef120264d744670fbade,
   0xd7c63baa62d9b23ea4762f6f99701418ef84a6a66bb4c686659472ff90f03362eb3555122edae6cd0eb127dc41f01181eb577776ed4de710b4dc9ef8a3a6bf9b,
   0x5e1cc0b609efbbd9cbe2b8c88b8bb8371993ef6d63089e99db1e18cd2e2e7432699b75678ba2ebb9a609a36bc96cdf26f730e920b249d78f63ec3a34740e304f,
   0x6200758e5d55c337104892eb6c05c8cfead680ee90706558d24a96cf206758d8256ebe011e930781fd37380ce6b41943ffb31f5cd37d1bf633d3b1e9c11f8f59,
   0xb23b0d7ca92080919b565720f1859bda1dfd8f6e6fcd30d44d7f09f0ca9d6abd83c84fe34cb20630ae10d48a5fc206070cfdce2f96e5479e26d2407623f3ff03,
   0xfcea25c6cc0af3f6e2aa1f75543dffc785c393abd65ed9a6fdb0d461b79cb88285ae31ec513d1a19e4d5665bcf363d78f8280b40ac22ae51dd0f23e69b6bd4b2,
   0xf2e3b011381739d7754f396f30aeacaa24ebcce79652c11d28c0a26472967fbc271f354f157180f2d72aa5bf47c4a4e357a794ffb2009a063377b8fdc770e398]

/-- Blocks 210 to 244. -/
def blocks6 : List Nat :=
  [0x280f423182050a48b42b0aeaf827047b128fc01d0d7f17df6626d83723d7422bf9ed4b59fe71de6b5ffc738c779496213197d4a483beecea46ea0429b6858312,
   0xa2dde092b03bbe32565d7a4d3feb962cfcbc05ab12dc0096383aa22c0b44276981682d3d6e344b25692a78e786fce230988fb1cdf9f9866de6dfd5abc2868a6e,
   0xc83910b81163b15ecd5e4870234adf619508a004ad7f6c3015a5a20ba038abd35046f376a1d8e736c096cb7817c0ce24bac939cbb7d258742cd1b649d85530b9,
   0x0415e063e11e766578958145ffbc1de80792228d09c981b5cda484a7a8a1f256def573d4aa50386d2f2d1dff92672b047de61abd8912eff8ea684ea08504481e,
   0xa873885637721b9800dae7cb16bb13d8f62890bed1f49617d86514969b5c90990170cec013a1ce9f5faafe304a749437991e0daed4b63652c2be7a1c752080e8,
   0xd03129fd063c596e1b5b160fddfceb8fa68fb9a547d4d2e431f5e2b50c7623e28097baea3e4539f0ee0cca8fb3cc3bcaf04e4d284e5103d9ca883795d2dd5778,
   0x3b9929d48abfd9c691d28e9f9f3726d092f0f7aa83ec9b1654daa22fa44bb90d1f8549e4864b1a88671ad5a80d0b56b18caeb5aede9b45badfa696713973ad5f,
   0x6666aeddae066d24aacae119188e52b0d9a29515c29299a9dbfbdb5b9445faa4bb841b8c1c101e039e11c35b597f77da8f2823c4f5caee9047160a05b7a8d455,
   0xbfe101dff197e7106143273881276a3850ab788fa3390d95aaa8e4f72bd61b77d1d9e126fb3b3cad058e3a20165aa613476d6b2ec57041dfc8388d15d3e3b3b0,
   0x9017e06996d281033c031bb7268aa77a4b1b3d6acb469f285a04b25089d730fbe85f49bc2f8d10e738af71e97412266981faf051ddc029b362b526963c2a43c5,
   0x1ffc7a46eae8512b5bae504010fc37056dd9e96c58b413fd0c36f767a967fe0831d7966f42c2cd735b7177ece2cd75793036450e466d7e24c93f6471ece561ad,
   0x51e8f0957e7094e7d3d384774aaef928ff05a80245740cc4a71f490ca91b7683ac81d1919007e41b2603b830b15eaad7933594bfea708a60e2a431631ce54e42,
   0x1545194c6cbe92b1c5a4a6c74853264917af71d28132b68ae9c6a5d7b8a3effb2a1ac8f8e480993bf09ce0d2850765af9f02a43d820dd361adde2c7d40439b73,
   0xb572956c6eea8dbc15f5f30e411fb45dfa3e2249044cf0bace41173f8d2452791723b537b1cc6c7f8b48ecf4194269fd3f97d4c83f5da7736516f86986704b35,
   0x9d6a3d280170373fee80d85a4d7f68b2a034809426e191b2235eaeffcae794d64233cc1a0be9143d828aa306200e1e6b823b66131c050504c51b89b03a8dfe93,
   0x93c125e4a1c3dc48e24940a92bac3df8267be22cbe5ad13be9a24716664ca4ee31e5720621c3e7fa474c69ec0e83925d1668a761fcf04d923d1b3cfdd043d340,
   0x79a44a45da5dda7314ffa5866c13ed145a3e8c12d782389547636445d48c2c1729fe29d58e8af535f83c108611c606b2f8390a5ab1da9e62b88b31a253c24eeb,
   0xe619379988349a26b6aa27a1083684250804b29f76c747e7ee4a141e4b53dd68817558a1c6622ff62fc261db441f0443def94bd2df73d49e5ed76f7e6ec1cf8d,
   0xda951d36656cf0ca3372335a52db40979567b8d703707dc9109504e2ff25757de416742713b96ad74e8e2a017ce22a64d046b3ac43273928e1d87bd979ee49be,
   0x2ef01c765d41ca48c1907cd7abd8b1a2384e1694847bd841ef59bf4515023ca34b2f489f59e90612c7f745ad087ce79ca438a2a99102b3db5fc29ac9b519fa18,
   0xe28546ac8688e74409f122edc94bc0fb5df935826676db06598cab5596781e0ae5a02042d4e087c7a9336c24c4dccb5b0de4c5195c93908c3403df4cb2f7591a,
   0x801fbb78d59e1e29e6179643c83f91a0e2b1156c37146f1fc04b21e31f847d974b54513d53c05335c600ba7537eb90a6cbd1ec75e52329c229b903e313b71586,
   0xc31ac4079af1d5ffa9f31718b6d448ad28feacceb0bd48768842cd27a4245f06cf767f290717984a1367ef725e026afc0a40eba2c31b460d27cd84962068acf5,
   0xdc7ffe09396d56bf8e2b0e05cb3a4c7920834dadebf09fe434dbdf92e0d881d0843ee02a9bddf8ff36de820fcb512ddaed9405bf0a868b0bd0125dac7f6cad17,
   0xd4c9fae4a03ae7a7562c6a865cdb897bbff3699fe9601ea5d4564a611c3f75eb1a59421fb7213301f75d43eaac467afa3ab72d9bfa4ae304099c0e0c0b376c48,
   0x9991ad9f0b2072cea1c4068e6e1bece1f4ea436b1b38e2d38d0a545db640383fda82a9ce84c5c6f08f5a82b7624c7dd97a134b8c375018b88d4f7b6237173a1b,
   0x67e0751a1c1ef9b90cf3cfe15234e9b55c595879221ab3fb1019812afa160b0cd3c14ba9ba0f1605f5fe46f49993f037cf06240bf40177635d290d1f68c9a797,
   0x60acca7978da2f1d4cd5a331eaa9e954640dc4faee37fe8f48640eb9fdeb21395f0fc92b0bc9465e46f0939c3bd7084bce76cdb2f861ffc2c56c9aa3d1531fc0,
   0xfa5e5125127a51c535c61c13fd5dea07efee7bdcdfcb87586eba1e0ce0d3d738c0a93f9950b8a6de02f3b5a02d2305e8739393c59464e5cb437787d99aef020a,
   0x4b32b290ed7a5f6cec6239dfe14bb142ef6dcbf188eb088628a67e46d263c8fa7d652435c658addd3d10f6d63405aa1a5e087baa0f7ff892ee30f986742ebc1b,
   0x943fb506d0d341081077bc166e48ea07b99462ea899eeba147f649193cc8ae663f7893c1ab196c12620db13a5fe4218945c6d36bb67ab19cd87b8b475061c3e6,
   0x700eee91b4655fb0640ce4d41a38210e1555488b57d694d3abbf71b3dbe89e9b5ffe0945f0e12635b7cfb970e5665eea3ed0ba5c6c52e5e8e9e875684b2ead82,
   0xc4336fd2afb94154103be170574f68ddbb2099d7f50a03d572f2dcd07e066f46e05e68cee5f3149dccad887df1ce38592d1b13a79206ea4eb9dd728244edd4c2,
   0x89b23d3c805978fe11e8059ef1d2118c75701ab52b3b903080a334a44600b2ffabde73c746d5d48b6a137443c42e1699e9e0f6b1bb309f3b44419357f228bb54,
   0x5b572fa42d78f38cada9da187d5556157988651aa00198999a13851ccd1905832f402258aa7ced9edddeec86e5ccd3257933c7ba87ef4b9b26c15466b95bf19f]

/-- Blocks 245 to 279. -/
def blocks7 : List Nat :=
  [0x74f15e07e57862b84417fc38700b4418aa4cc8172efc4656175183c872c64409ae99086c9fcb54e6f9bcf7fdc8e93cb212a2ce6aa481f3b710724bc825089f79,
   0xbcb77b3851b9035d23a106875ba45591a73f305ce249256f56daf04987f1e5b58a47e3113bd6b4a8790a327b63be6cdb149b6af5dddead50bcd3e869420ba27c,
   0x045d0238f7f8b5ff89b7999be116294a95b8b8c28de1dfe587a30382c5808fae64f98b306a483622bfeae6f483451eaf291255c970b485b53d3a563dd6e0dcfa,
   0x20891050870aa59a4bdbc75f5cea82f6f08c8e088b585f72ad771846f768ff6010ef59da810089c36b0a40e41505fe685f54d6d23801304cfb1cf0f35a30d429,
   0xd5b1d7ec7b7211f4f28708282f822816fbfd9a3163162078c3a9ff4b073d66a1c9640b5d593d7b4955a42280c8e6a463b3c45919a525901e21f316327e614416,
   0x392822de1abb25901d2751186dcb71e43075a660919a8e7646d312bd32bdd2982216f9144a9dc822a5d4158881a53b2819e83bc139b5813242e02517c7c5a81b,
   0x60d7f6b34167dabb030cc897cb811df194feec8cd9a50bd608099c7f15ad729d109a7e9728ceb6bd10c93540ca0709b1114123f389dfea01b143a924f59d802c,
   0x0450055dccd41fafabd510cdd21f343b4824b23f3acdc1ce0ebd3aceb237db26aafc340dab0f41fd18239c715cd5c7f102f256b5fc5cbd715e27c3c118a5ab8a,
   0x65f991fe3ee00ee2dbde0998a751020cdc3b0eced820b954dff4ea55a2ae973f0ddd42a611301a33b84da4dbeccf790d091128add8ff93b177b9fe68e1df8ac1,
   0xe83f5411505a9bbcfa3a7d2aaee9eceba4238ac1b32104c115e1a0833ed69839282766e15ff51a6cccf3fea64abbc367a27c746a2d08164bdc9df4bcee1e40ca,
   0xbe9f3a5eac8f6910994848817753af25be178289405ed4783e0c46269f8e5bc9b191e468d5be35046010d9a1738d4e9be662a2ec22a62df3932a154d3a5c70d5,
   0x77b9e75006804c9b388624e46c74c1a9f7c2b4181cb3fea449879a476a3dbf43e10eb803f16f39c8e02178037e007250ff6a16243e0c12c685320bbb92c7aa5b,
   0xaf942e242af801a348a9798050d0b24de19f92106bd5e2f7af672ace2ba1c883929a10124b6181ccd8a9fb53570c27a7ea81674ca6388c7d223ad78ec50e76f3,
   0xfee186031342bddcc014f35076d736647ef41e085803dc485d2fcc987ce3dd76a3389349ba01e0532ac948a18bfa2bc15f37c752e971b6c5c62aed9abaafeafe,
   0x9070cdd4fd12ba91c7f7ef0dc2313fc99fbbd57caf6795ade80fa7f92aeb259e6351cea4febba6bf64f955fa6416e0a9ae4bf7ab1bc50bc33fa0889f45519c29,
   0xae49d4132f6bed2804551b835f610315c165c7af779324f5c4fe286263fcb0197d814caa558cf1d1d1fc3ac49ab8eaeba5a56bf1479d5a9b3f9dfdfa975f5b82,
   0x31c7fb86a5eaf8d7eedb3d48e477a7f16a10afd0ba731d27e1e93132713a1645f98555f0f3bfb8a46f3c56963ff82160db4a6451a8153b62cd838eeb93e1f096,
   0x059ea0d096d63035e14465b8984964eed1ba7fe04375956676a5edb25e6f2e9358e80a3db58f97d18f1b72d2bb55ea53e1ee052205a5cbd02b8ddb885c169f22,
   0xf9dd425dbb9200186a752971fb88cb73c9cbb4dc4ea45a5f2e5bdfe8615ec2ba8e352c41540a6e93608dd720bd0bbdcaa556d05609efa475c682c363b59a6969,
   0xc086a29fa487cd3d3c015a6e393620654d40d36824d4646275da546073bd5320730579c6d2d78d71223b6d49ef62fd21af02b792119e333b6ca9238931cb08e0,
   0xac436bdd056cb309523ae72acb0e905a35315de1a9c56d26772ccb85e0e11399fde12b9944034e627223e574ebe0819eaf06e9bf2afb95c1c126aad601f14de2,
   0xe2e50fcbf463a8a5a7118e8da5a45e87a6a7170a033f006b47aa29d2e90bc26489fe863a0888468a88805fef8ef3775a850acc2512281d1da5962d013903f820,
   0xe311df0e5a5480916d1e9e2d32235bbf6b9b426bb4f65729c31ff7717bf199ef1ed0da1922e9a20fb3e36fac505524d8dd0926c3c47fd730e2a41dd676d84b07,
   0xc7f1b89db82be7d5f52430cd3155990870a5c245f4ebc24e5e6d4d8500c34359f20fff23d5ba75f9f7b1d8e925f3c2ba8c2cb62ccd00031c8f10f718183eb717,
   0x439107461837bd62de4000ff53329d7f3783517b0b500f0746c63a7f10f025e825084d6404e42b85ca57b72a6fc7486a10fa1bfc99fef32fb69392669ad98175,
   0x9825f5d4c7086423ebbc7ccc1b972e55a2a94208dc8ff4076287002687f73452c682a05cec69cd51fb5ef798c575c8a60e10f2c13b6804f0147c15b4ce31a81b,
   0x398739e646e134fa8afdb4bcfc90afd6a48f6f4cbcc1ec197968fda2b9d6d79a2544eafd706d7bf9516244866439d2a67156175a917ed7b1704f435973601784,
   0x21ca40e3efab33920ad369340dd998f5fdd29e3b9c7c3c2cd2ecad8342c11ed224af6159e0b136c68c81601db0cb56a441b442ad8f8143e99562ad5da78c1d79,
   0xb2933ba97717e52a4e6d8a0cff71cfec4c03b4770c53238ad4bcfdb63b780d544149ac1b39b8c5228ed03c48575e8b2e512ddb2233e27ee40db3a2fadfdfc85f,
   0xa88eae1e70cb1bdc1f840dc176a550adad74f2b2fae36a24e8364cdbef05b1ff6d72313daf65ea8875755a64de6bd36a88f0f340306a981deb5e265dac60302d,
   0x0fcef3f9bf27c90b10017ffa2ff8532cc1e60ff1757a4e8f2433dbc4022bba1b86fe179a1441a92276700a313b8ef63c16dd1cbb514f3316da0a6e7d3b88d23b,
   0x1468d02f7440aa5552ce6a3bef2e87dd57184ffaaf6df42fef87f9b54a4f3cd957df6f6f6a576fd944beb6a80babd52764d0f0593060f021339f9f23b739823e,
   0x80b73a76d17424e3890e8cb42a62ec4eb854428e09a873cf7e09aabf0d73be23fbc882764af5d7018c434776ce3071a8e049ef3c76fc2dc8b6dd04e57c2feaa2,
   0x936b185fd2b405ae641ced489c03bcd9a615ffc22c902f46e9bdafca5401af9e10b8dedaeea90b4db04f98dae59e15d949d6a67a24dcc188c3e02d51caf3f0a1,
   0x9a8d3c0bd883122834e6c9f7c3e82cbe2e4e9f837bb912b2532f071681a74577db752d5d550d84167dd4429492690a2dfc45dd42a442441f7cd8864fa0c7c085]

/-- Blocks 280 to 314. -/
def blocks8 : List Nat :=
  [0x9c654f88da72d8ee4934b59ff75c5df69a17cea7f83d97207fbbd58d7a05e0d9c3b8197d45d1ac52c80f1828c280373fa5c7225a291bd45d87458c0b2cd7c885,
   0xd918635fb0cde02433fd247c625feb22f7bb779c1b59ad75ef24f7085aa195d5f439248585d69eae6acb5cbb0e3b527ca2dc38d66073bc02d62995940bb7cfa8,
   0x5754a7c295655c190662c7aa2ac56fabd7bca74ce20b85983aa5075f47eea4c0bab1950eb8c5b7c7f39398d88f3957b6274dfbb69e59a51f23c2dd59aaac4f1e,
   0x1de488db0a32c3c5f884304b099ef82309347cedd1d425e367dcda678a1fe32e951c6a0d12bd46a6ca682d63d76fff21f2880953148d199a7a449bc5fdce6534,
   0x80d1d05d49f4d13f726066b2c1afdc48764fecad41d61f4f176ebe26e0882547f74d6eb0fa0b0d21d79172661d0d3ebba64afe9802013443fabac1ec14fe9826,
   0x35881776d4cd79bb45d708fc11d5e2c0abe92b1996ac5cc00061a51cba1b6b848d9befc70fd664a637b08f37a17206fb83bda7aeb3229fad040be8a60621f3b0,
   0xe8ea2c9fd6ce9a9dca77e1e7b3db763ac1f58f22a0d288d2c3d976537019ac313736f46ed2ef05b074bc3360ca8e021d99ecdd8c4fbc84f0db7ad424f649249c,
   0x235466a68bf71094c49cf1a071611b9c964fd9cdfd6621468a3a6785434e46a5181fa74ed04cc4f08f2abc26991466c421fbf68586492f3c0c58e467112db170,
   0x438fa4e3b185b7a0a41b20e7a8f44db1aa3097d2a66be82eef74657a4041945a93f09a618ad5105449625e9e7801e0daac341c99f5dbd45fc1508d63421bab8f,
   0x667b073b9e1d15a68a8134d465ef237621b0f794c5f344f620e42a25d3e0711bb44049a327a05b02e245d0d3a15c9670a48eef3d4afa03562566739a1f27c1dd,
   0x03927912f7ce0d223d50790981661070cdf2efcc7f3a07fa0bdbee5c8cd1a7212a9049d51eb6560ae74ace0f8257285982858c7bcef738eecf65a1c1a6f8f5a4,
   0x9e43a2c662b2ed1e1cec416b8da1ef47b86ec034f1e4c425435817bdcb34e33f43aebdb09a880444ee5b08ef841506f72583350f842af470a3091c04f5a8da7c,
   0x8de0eafd6d91d00f3672a0725eb9872655cde33b4ed0bf3b2d474baa7ab5de073a03f015eabde6a55423a4fbae47686282a1c34e6b5030d2ddf7973c634644ff,
   0x2ff3a69128ba32e9158257946557966b9e3925ec1e02cea6543b7c9f92c0f7109382babce2e3dd65e0e833398279b06cbbfd41e97a3a8abcd2ae64b53aae4cff,
   0x12e863a1d0751bfc74b7ad8dcc0697820d1a7eabbcd8acd2402d52fcc59fd22bf1dd1c3ff9911c0051b673c2ceb4a15366af511f06de68fb3e341877152663f8,
   0x54b59a3d690669a1ebc165ef1686b4218e868061c57c56d4676030870919b6a28bf6e45b70bbed10c1cad403eafac95b132a91d669de90b83270bfe39d7a0c13,
   0x7fe90f09796080d7467c921b40c3c80377d298eb664f627d6aec6b0f8dfd10c6e25fc2ab3c960d0edc97249862a11743024f65b0fe8405ff7c82345ffe4394aa,
   0xb7f8f647dc2c6a7eb4a6f68693a8373799d860e9e5fc8b6e868a11d71026e54934999c4c3f5a348dfe045aa9e5af8d8193a7aa0ef4d400a2dbfc3c84a458adfe,
   0x0a7c3357af10b9310f7f4f7a28b044371ee2f2e7c676cc3847a469c4b66f9eccc496734d162c86ca4c52c2998eb4170da1c527d124f1a51681b31b3a0d368cb4,
   0xa9d6dac10b05ab36503911cb7e1b3b271dde5045a5b7679854b18dd103ec6c85eb3c2b27992f057b27765e098afeb3e711d63b7851f29986a51a9965ad7b0a38,
   0xa790821dc46eaa2d8120dcea9f3304a6abcd525a5e81618fae2a3ee368be213a84376c6eb60a9c8479405fe6c3883b5aae3e34d9d41e0fa9dc561e0ef0b557e5,
   0xea69581c3f5a72e4c32892ca36687777a5cd2743249ae26c81ceb87c8b894bf56252bca2a13af25e7595b650f48d6dfbad931d4a8d7a0efadd2036db0ca02a1f,
   0x8f83e2737d8e9b7204805868a601b46a9172663598c2e040bad18b03c81da231d4229bd0531d94cd60ddaa8a50cfd8273ab286d7640365b2be651e7267fed5d1,
   0x099612d5657c4e211e4466c0effd84e56c3171f976d095dfd93754c154ec4170f83a49f4d097c99ad3604cbfb5434192f6d1cd8c6556ddb87e3bfffb9a7c8742,
   0x41823c4fc502bab177c4ea1f83385d7cc9eb894d515d038680ee3b8691d0beab0c877330eda52ed6fa0fb0782abe34dc1cc8df955dcb496fb6928f76633ce32b,
   0xb6e63dc29a613cd805cbe584516809db55864e513df123a698b6d060259795d9217f6dcaae40a5929019e1a2074a68de5821feb7c66914a57d4bf6ba78c2116c,
   0x8ca47769840e26574e866f6f1b93e2b644f1e3e0210af2ba6e6c8c314fa40afb868ba33bda299faf83c5e10fd29c314255bca9ff820cb4d4577e1f1f4ef96a28,
   0x5dde16eabefd3f28e79bb8c3793abea044bbecbb334707982615ea75760bcd707c3772ffd02f72c2f485a9831dce0964408f309984806831ef500c1f058baaf9,
   0x9354b60b8d5559fd4ad3077af18a2df60fb39ede903e30cfa5e9d880e2e51f7c035ad808ff7990b7ecc211581659018b921456ee4dfcaea87ac65917b0ac2b27,
   0x0d64996839deca7ef6a9f72069f1c267c7b434eb4fa9daf376a7ef889f5df4cd3e9ba899e8ac4b9a600cd5db65402d1bc8680b1b28de334fa001e3c417ce27fa,
   0x78de88973e7dd3fe4f3673a3ec64b7a903cd6f424dd5fe3c24ee21274a8ca2d6a8d7be635062bee0914a31bb6b84df5b4ce4a076f79e70fd3adeb6245cfa347c,
   0x90b9abc18a025db9a153eb48054cd9f899caa3b8541a7b32dc6dbab5016936d608157ec835ea9891b325d39d30ea6db716f8a3abd8d965cf71342d15ed498bf5,
   0x6e04cd9c4f35d92c2af2b2c9f89cfa7821d497440546e22596cbc10b1160508e466fb9719707993b0cb61f9099865ec6ebc79b70b4ed757b8a9e628456a04581,
   0x8c99bb1e98e73c75cd9259793cc821ccc5cf0946ef3d4d32f60b6ff620b39f35785f3396b6826670f23a759eba419eb44a09eb51f53b52e91ee9d6f25331500e,
   0x6c1421daad0113468036e3e8475415d926a6144621c2f2698b2415f96f0e94125fcfcad0ee60f32718e7718972b4eb791b0c1afe8401afc34493ea883212e6ce]

/-- A block of the keystream. -/
def blockLit (b : Nat) : Nat :=
  ([blocks0, blocks1, blocks2, blocks3, blocks4, blocks5, blocks6, blocks7, blocks8].getD (b / 35)
    []).getD (b % 35) 0

/-- The `n`-th number. -/
def drawLit (n : Nat) : Nat := lane 64 (blockLit (n / 8)) (n % 8)

/-- The key words. -/
def keyLit : V4 × V4 :=
  (⟨0x9a313f27#32, 0xca764fcc#32, 0xdc0a4045#32, 0x4b112a6a#32⟩,
   ⟨0x5c32a54e#32, 0x841af858#32, 0xa2b516c1#32, 0xc6e19394#32⟩)

theorem key_lit : StdRng.pcgKey 2022#64 = keyLit := by decide +kernel

/-- Words packed, first word lowest. -/
def packWords (l : List (BitVec 32)) : Nat := l.foldr (fun x acc => x.toNat + 2 ^ 32 * acc) 0

theorem blocks_lit : ((List.range 315).all fun b =>
    packWords (ChaCha.block12 keyLit (BitVec.ofNat 64 b)) == blockLit b) = true := by decide +kernel

theorem lane_packWords (l : List (BitVec 32)) (i : Nat) :
    lane 32 (packWords l) i = (l.getD i 0#32).toNat := by
  induction l generalizing i with
  | nil => simp [packWords, lane_zero]
  | cons x l ih =>
    have hx := x.isLt
    have e : packWords (x :: l) = x.toNat + 2 ^ 32 * packWords l := rfl
    rw [e]
    cases i with
    | zero => simp only [lane, List.getD_cons_zero]; rw [Nat.mul_zero, Nat.shiftRight_zero]; omega
    | succ i =>
      rw [List.getD_cons_succ, ← ih i]
      have := lane_shiftRight 32 (x.toNat + 2 ^ 32 * packWords l) 1 i
      rw [← this, Nat.shiftRight_eq_div_pow, Nat.mul_one, Nat.add_mul_div_left _ _ (by omega),
        Nat.div_eq_of_lt hx, Nat.zero_add]

theorem lane_two (v i : Nat) : lane 64 v i = lane 32 v (2 * i + 1) * 2 ^ 32 + lane 32 v (2 * i) := by
  have h1 : v >>> (32 * (2 * i)) = v >>> (64 * i) := by rw [show 32 * (2 * i) = 64 * i by omega]
  have h2 : v >>> (32 * (2 * i + 1)) = v >>> (64 * i) / 2 ^ 32 := by
    rw [show 32 * (2 * i + 1) = 64 * i + 32 by omega, Nat.shiftRight_add,
      Nat.shiftRight_eq_div_pow _ 32]
  simp only [lane]
  rw [h1, h2]
  generalize v >>> (64 * i) = y
  omega

theorem draw_lit {n : Nat} (hn : n < 2520) :
    (Spec.draws StdRng.nextU64 (StdRng.seedFromU64 2022#64) n).toNat = drawLit n := by
  have hb := List.all_eq_true.1 blocks_lit (n / 8) (List.mem_range.2 (by omega))
  rw [beq_iff_eq] at hb
  rw [draws_std, key_lit, drawLit, ← hb, lane_two, lane_packWords, lane_packWords]
  simp only [chachaDraw, StdRng.join, BitVec.toNat_append]
  rw [← Nat.shiftLeft_eq, ← Nat.shiftLeft_add_eq_or_of_lt (BitVec.isLt _)]

end Yasai.Proofs
